import Verif.Props.EndToEnd
import Verif.Props.MeshTransform

/-!
C115: how many Slepian coefficients are asked for and given.
-/
namespace Sleplet.Props

open Sleplet.Transform Sleplet.Cache Sleplet.Region

variable {Pix : Type} [Fintype Pix] {L : ℕ}

private theorem rank_ok (sl : Transform.Slepian (L ^ 2)) (synth : (Fin (L ^ 2) → ℂ) → Pix → ℂ) (w : Pix → ℝ) (inp : Inputs (L ^ 2) Pix)
    (hinp : inp.f ≠ none ∨ inp.flm ≠ none) (rank : ℕ) (h1 : rank < L ^ 2) (h2 : rank < sl.evecs.length) (h3 : rank < sl.evals.length) :
    ∃ c, decompose sl synth w inp rank = .ok c := by
  obtain ⟨f, flm, mask⟩ := inp
  have hv : NumPy.item sl.evecs rank = .ok sl.evecs[rank] := by simp [NumPy.item, h2]
  have he : NumPy.item sl.evals rank = .ok sl.evals[rank] := by simp [NumPy.item, h3]
  unfold decompose
  cases flm with
  | some flm =>
    simp [Transform.detectMethod, Transform.validateRank_ok h1, bind, Except.bind, Transform.harmonicSum, hv, pure, Except.pure]
  | none =>
    cases f with
    | some f => cases mask <;> simp [Transform.detectMethod, Transform.validateRank_ok h1, bind, Except.bind, Transform.integrateSphere,
        Transform.integrateRegionMethod, hv, he, pure, Except.pure]
    | none => simp at hinp

private theorem rank_missing (sl : Transform.Slepian (L ^ 2)) (synth : (Fin (L ^ 2) → ℂ) → Pix → ℂ) (w : Pix → ℝ) (inp : Inputs (L ^ 2) Pix)
    (hinp : inp.f ≠ none ∨ inp.flm ≠ none) (rank : ℕ) (h1 : rank < L ^ 2) (h2 : sl.evecs.length ≤ rank) :
    decompose sl synth w inp rank = .error .indexError := by
  obtain ⟨f, flm, mask⟩ := inp
  have hv : NumPy.item sl.evecs rank = .error .indexError := by simp [NumPy.item, h2]
  unfold decompose
  cases flm with
  | some flm =>
    simp [Transform.detectMethod, Transform.validateRank_ok h1, bind, Except.bind, Transform.harmonicSum, hv]
  | none =>
    cases f with
    | some f => cases mask <;> simp [Transform.detectMethod, Transform.validateRank_ok h1, bind, Except.bind, Transform.integrateSphere,
        Transform.integrateRegionMethod, hv]
    | none => simp at hinp

private theorem all_error (sl : Transform.Slepian (L ^ 2)) (synth : (Fin (L ^ 2) → ℂ) → Pix → ℂ) (w : Pix → ℝ) (inp : Inputs (L ^ 2) Pix)
    (e : Err) (r : ℕ) (hr : decompose sl synth w inp r = .error e) (rs ts : List ℕ)
    (hrs : ∀ q ∈ rs, ∃ c, decompose sl synth w inp q = .ok c) : decomposeAll sl synth w inp (rs ++ r :: ts) = .error e := by
  induction rs with
  | nil =>
    simp [decomposeAll, hr, bind, Except.bind]
  | cons q rs ih =>
    obtain ⟨c, hc⟩ := hrs q (by simp)
    simp [decomposeAll, hc, ih fun q hq => hrs q (by simp [hq]), bind, Except.bind]

private theorem range_split {r k : ℕ} (h : r < k) : ∃ ts, List.range k = List.range r ++ r :: ts := by
  obtain ⟨d, rfl⟩ : ∃ d, k = r + (d + 1) := ⟨k - r - 1, by omega⟩
  refine ⟨((List.range d).map Nat.succ).map (r + ·), ?_⟩
  rw [List.range_add, List.range_succ_eq_map]
  simp

private theorem forward_eq (sl : Transform.Slepian (L ^ 2)) (synth : (Fin (L ^ 2) → ℂ) → Pix → ℂ) (w : Pix → ℝ) (inp : Inputs (L ^ 2) Pix)
    (hinp : inp.f ≠ none ∨ inp.flm ≠ none) (n : Option ℕ) :
    slepianForward sl synth w inp n = decomposeAll sl synth w inp (List.range (n.getD sl.N)) := by
  obtain ⟨f, flm, mask⟩ := inp
  unfold slepianForward
  cases flm with
  | some flm => simp [Transform.detectMethod, bind, Except.bind]
  | none =>
    cases f with
    | some f => cases mask <;> simp [Transform.detectMethod, bind, Except.bind]
    | none => simp at hinp

/-- C115.  Asked for no more coefficients than there are eigenvectors, the forward transform gives exactly that many, and every shorter
request, the default of `N` among them, gives the first ones of these. -/
theorem C115_forward_partial (sl : Transform.Slepian (L ^ 2)) (synth : (Fin (L ^ 2) → ℂ) → Pix → ℂ) (w : Pix → ℝ) (inp : Inputs (L ^ 2) Pix)
    (hinp : inp.f ≠ none ∨ inp.flm ≠ none) (k : ℕ) (h1 : k ≤ L ^ 2) (h2 : k ≤ sl.evecs.length) (h3 : k ≤ sl.evals.length) :
    ∃ cs, slepianForward sl synth w inp (some k) = .ok cs ∧ cs.length = k ∧
      (∀ j ≤ k, slepianForward sl synth w inp (some j) = .ok (cs.take j)) ∧
      (sl.N ≤ k → slepianForward sl synth w inp none = .ok (cs.take sl.N)) := by
  have hex : ∀ r, ∃ c, r < k → decompose sl synth w inp r = .ok c := by
    intro r
    by_cases hr : r < k
    · obtain ⟨c, hc⟩ := rank_ok sl synth w inp hinp r (by omega) (by omega) (by omega)
      exact ⟨c, fun _ => hc⟩
    · exact ⟨0, fun h => absurd h hr⟩
  choose g hg using hex
  have hall : ∀ j ≤ k, decomposeAll sl synth w inp (List.range j) = .ok ((List.range j).map g) := fun j hj =>
    decomposeAll_ok sl synth w inp g _ fun r hr => hg r (by rw [List.mem_range] at hr; omega)
  have htake : ∀ j ≤ k, (List.range j).map g = ((List.range k).map g).take j := by
    intro j hj
    rw [← List.map_take, List.take_range, min_eq_left hj]
  refine ⟨(List.range k).map g, ?_, by simp, fun j hj => ?_, fun hN => ?_⟩
  · rw [forward_eq sl synth w inp hinp]
    exact hall k le_rfl
  · rw [forward_eq sl synth w inp hinp, ← htake j hj]
    exact hall j hj
  · rw [forward_eq sl synth w inp hinp, ← htake _ hN]
    exact hall _ hN

/-- C115.  Asked for more, it fails: with `IndexError` when some eigenvectors are missing and with `ValueError` when there are all `L²`. -/
theorem C115_forward_fails (sl : Transform.Slepian (L ^ 2)) (synth : (Fin (L ^ 2) → ℂ) → Pix → ℂ) (w : Pix → ℝ) (inp : Inputs (L ^ 2) Pix)
    (hinp : inp.f ≠ none ∨ inp.flm ≠ none) (hw : sl.evals.length = L ^ 2) (k : ℕ) (hk : sl.evecs.length < k) :
    (sl.evecs.length < L ^ 2 → slepianForward sl synth w inp (some k) = .error .indexError) ∧
    (sl.evecs.length = L ^ 2 → slepianForward sl synth w inp (some k) = .error .valueError) := by
  rw [forward_eq sl synth w inp hinp]
  obtain ⟨ts, hts⟩ := range_split hk
  constructor
  · intro h
    change decomposeAll sl synth w inp (List.range k) = _
    rw [hts]
    exact all_error sl synth w inp _ _ (rank_missing sl synth w inp hinp _ h le_rfl) _ _ fun q hq => by
      rw [List.mem_range] at hq
      exact rank_ok sl synth w inp hinp q (by omega) hq (by omega)
  · intro h
    change decomposeAll sl synth w inp (List.range k) = _
    rw [hts]
    refine all_error sl synth w inp _ _ ((C33_rejections sl synth w).2.1 inp hinp _ (Or.inr ?_)) _ _ fun q hq => ?_
    · rw [h]; exact_mod_cast le_rfl
    · rw [List.mem_range] at hq
      exact rank_ok sl synth w inp hinp q (by omega) hq (by omega)

/-- a pair of constructions of the same problem, one after the other, in a directory without files. -/
private theorem twice (env : Env) (s : Region.Slepian) (r : Obj) (hval : s.validate = .ok ()) (hr : s.createRegion = .ok r) (fs : FS)
    (h1 : ∀ n, fs.registry n = none) (h2 : ∀ n, fs.user n = none) : ∃ o,
    (runAlone fs (construct env ⟨s, none⟩)).1 = .ok ⟨.evals (env.solve s).1, .evecs (env.solve s).2.1, o⟩ ∧
    (runAlone (runAlone fs (construct env ⟨s, none⟩)).2 (construct env ⟨s, none⟩)).1 =
      .ok ⟨.evals (env.solve s).1, .evecs (savedRows env s), o⟩ := by
  have plain : savedRows env s = slice (env.solve s).2.1 (env.shannon s) →
      construct env ⟨s, none⟩ = solvePlain (env.location s r) (env.shannon s) (env.solve s).1 (env.solve s).2.1 → ∃ o,
      (runAlone fs (construct env ⟨s, none⟩)).1 = .ok ⟨.evals (env.solve s).1, .evecs (env.solve s).2.1, o⟩ ∧
      (runAlone (runAlone fs (construct env ⟨s, none⟩)).2 (construct env ⟨s, none⟩)).1 =
        .ok ⟨.evals (env.solve s).1, .evecs (savedRows env s), o⟩ := by
    intro hs hc
    have hl : ∀ n, npLoad fs (find fs n) = .error .typeError := by
      intro n; simp [find, h1, h2, npLoad]
    have hfresh : runAlone fs (construct env ⟨s, none⟩) = (.ok ⟨.evals (env.solve s).1, .evecs (env.solve s).2.1, none⟩,
        (fs.write (evalFile (env.location s r)) (some (.evals (env.solve s).1))).write (evecFile (env.location s r))
          (some (.evecs (slice (env.solve s).2.1 (env.shannon s))))) := by
      rw [hc]
      unfold solvePlain runAlone
      rw [hl]
      rfl
    refine ⟨none, by rw [hfresh], ?_⟩
    rw [hfresh]
    dsimp only
    generalize hfs' : (fs.write (evalFile (env.location s r)) (some (.evals (env.solve s).1))).write (evecFile (env.location s r))
          (some (.evecs (slice (env.solve s).2.1 (env.shannon s)))) = fs'
    have hreg : ∀ n, fs'.registry n = none := by rw [← hfs']; exact h1
    have n1 := (files_ne (env.location s r)).1
    have l1 : npLoad fs' (find fs' (evalFile (env.location s r))) = .ok (.evals (env.solve s).1) := by
      have : fs'.user (evalFile (env.location s r)) = some (.evals (env.solve s).1) := by
        simp [← hfs', FS.write, n1]
      simp [find, hreg, this, npLoad, FS.read]
    have l2 : npLoad fs' (find fs' (evecFile (env.location s r))) = .ok (.evecs (slice (env.solve s).2.1 (env.shannon s))) := by
      have : fs'.user (evecFile (env.location s r)) = some (.evecs (slice (env.solve s).2.1 (env.shannon s))) := by
        simp [← hfs', FS.write]
      simp [find, hreg, this, npLoad, FS.read]
    rw [hc]
    unfold solvePlain runAlone
    rw [l1]
    simp only
    unfold runAlone
    rw [l2, hs]
    rfl
  cases s with
  | polarCap L t g =>
    have ht : t ≠ 0 := by
      intro h
      simp [Region.Slepian.validate, h] at hval
    refine ⟨_, ?_, C11_collision env L t t g r r ht ht hr hr rfl fs h1 h2⟩
    rw [run_polar_fresh env L t g r ht hr fs h1 h2]
  | limitLatLon L a b c d =>
    refine plain rfl ?_
    unfold construct
    simp only [hval, hr]
  | arbitrary L m =>
    refine plain rfl ?_
    unfold construct
    simp only [hval, hr]

/-- C115 is violated: whether coefficients beyond the first `N` can be had depends on who came before.  For every region other than a polar
cap, and for polar caps from bandlimit 17 on, the first construction on a machine gives any number up to `L²` of coefficients of a signal,
and the same lines run a second time give `IndexError` from `N + 1` on. -/
theorem C115_history_violation (env : Env) (s : Region.Slepian) (r : Obj) (hval : s.validate = .ok ()) (hr : s.createRegion = .ok r)
    (hs : IsPolar s → 16 < s.L) (h0 : 0 ≤ env.shannon s) (hw : (env.solve s).1.length = s.L ^ 2) (hv : (env.solve s).2.1.length = s.L ^ 2)
    (fs : FS) (h1 : ∀ n, fs.registry n = none) (h2 : ∀ n, fs.user n = none) :
    ∃ (w : List ℝ) (v v' : List (List ℂ)) (o : Option File),
      (runAlone fs (construct env ⟨s, none⟩)).1 = .ok ⟨.evals w, .evecs v, o⟩ ∧
      (runAlone (runAlone fs (construct env ⟨s, none⟩)).2 (construct env ⟨s, none⟩)).1 = .ok ⟨.evals w, .evecs v', o⟩ ∧
      ∀ (k : ℕ), (env.shannon s).toNat < k → k ≤ s.L ^ 2 → ∀ (synth : (Fin (s.L ^ 2) → ℂ) → Pix → ℂ) (q : Pix → ℝ)
        (inp : Inputs (s.L ^ 2) Pix), (inp.f ≠ none ∨ inp.flm ≠ none) →
        (∃ cs, slepianForward (asObject s.L (env.shannon s) w v) synth q inp (some k) = .ok cs ∧ cs.length = k) ∧
        slepianForward (asObject s.L (env.shannon s) w v') synth q inp (some k) = .error .indexError := by
  obtain ⟨o, ha, hb⟩ := twice env s r hval hr fs h1 h2
  have hsave : savedRows env s = (env.solve s).2.1.take (env.shannon s).toNat := by
    cases s with
    | polarCap L t g =>
      have : L > 16 := hs trivial
      simp [savedRows, this, slice, h0]
    | _ => simp [savedRows, slice, h0]
  refine ⟨_, _, _, o, ha, hb, fun k hk hkL synth q inp hinp => ⟨?_, ?_⟩⟩
  · obtain ⟨cs, a, b, -, -⟩ := C115_forward_partial (asObject s.L (env.shannon s) (env.solve s).1 (env.solve s).2.1) synth q inp hinp k hkL
      (by simp [asObject, hv, hkL]) (by simp [asObject, hw, hkL])
    exact ⟨cs, a, b⟩
  · have hlen : (asObject s.L (env.shannon s) (env.solve s).1 (savedRows env s)).evecs.length = (env.shannon s).toNat := by
      simp only [asObject, hsave, List.length_map, List.length_take, hv]
      omega
    exact (C115_forward_fails (asObject s.L (env.shannon s) (env.solve s).1 (savedRows env s)) synth q inp hinp hw k (by omega)).1
      (by omega)

/-- the hypotheses are met: the 60 degree cap at `L = 18`, with `N = 81` of 324. -/
example (masks : MaskTable) : ∃ (env : Env) (s : Region.Slepian) (r : Obj), s.validate = .ok () ∧ s.createRegion = .ok r ∧ 16 < s.L ∧
    env.shannon s = 81 ∧ (env.solve s).1.length = s.L ^ 2 ∧ (env.solve s).2.1.length = s.L ^ 2 ∧ 81 < s.L ^ 2 := by
  obtain ⟨env, -, h1, -⟩ := exists_solver masks
  have hpi := Real.pi_pos
  have h60 : Py.deg2rad (60 : ℤ) = Real.pi / 3 := by rw [deg2rad_eq]; push_cast; ring
  have hs : env.shannon (.polarCap 18 (Py.deg2rad (60 : ℤ)) false) = 81 := by
    show (Slepian.polarCap 18 (Py.deg2rad (60 : ℤ)) false).shannon 0 = 81
    unfold Slepian.shannon
    apply round_near
    have : (Slepian.polarCap 18 (Py.deg2rad (60 : ℤ)) false).area 0 * ((Slepian.polarCap 18 (Py.deg2rad (60 : ℤ)) false).L : ℝ) ^ 2 /
        (4 * Real.pi) = 81 := by
      simp only [Slepian.area, Slepian.L, h60, Real.cos_pi_div_three]
      push_cast
      field_simp
      norm_num
    rw [this]
    norm_num
  have hw : WholeDegrees (.polarCap 18 (Py.deg2rad (60 : ℤ)) false) := .polarCap 18 60 false (by norm_num) (by norm_num)
  obtain ⟨r, hr⟩ := wholeDegrees_region hw
  have hsol := h1 18 (Py.deg2rad (60 : ℤ)) false (by norm_num) (by rw [h60]; positivity) (by rw [h60]; linarith)
  obtain ⟨a, b, -⟩ := solved_best masks env _ ⟨r, hr⟩ hsol
  have hval : (Slepian.polarCap 18 (Py.deg2rad (60 : ℤ)) false).validate = .ok () := if_neg (by rw [h60]; positivity)
  exact ⟨env, _, r, hval, hr, by show 16 < 18; norm_num, hs, a, b, by show 81 < 18 ^ 2; norm_num⟩

/-- the hypotheses of the other two are met with different answers: two of four functions at hand, `N = 1`. -/
example : ∃ (sl : Transform.Slepian (2 ^ 2)) (synth : (Fin (2 ^ 2) → ℂ) → Unit → ℂ), sl.N = 1 ∧ sl.evals.length = 2 ^ 2 ∧
    slepianForward sl synth (fun _ => 1) { flm := some fun _ => 3 } none = .ok [3] ∧
    slepianForward sl synth (fun _ => 1) { flm := some fun _ => 3 } (some 2) = .ok [3, 6] ∧
    slepianForward sl synth (fun _ => 1) { flm := some fun _ => 3 } (some 3) = .error .indexError := by
  let sl : Transform.Slepian (2 ^ 2) := ⟨1, [1, 1, 0, 0], [fun i => if i = 0 then 1 else 0, fun i => if i = 0 then 2 else 0]⟩
  refine ⟨sl, fun c _ => c 0, rfl, rfl, ?_, ?_, (C115_forward_fails sl _ _ _ (Or.inr (by simp)) rfl 3 (by simp [sl])).1 (by simp [sl])⟩
  · simp [slepianForward, Transform.detectMethod, decomposeAll, decompose, Transform.validateRank, Transform.harmonicSum, NumPy.item, sl,
      bind, Except.bind, pure, Except.pure]
  · simp [slepianForward, Transform.detectMethod, decomposeAll, decompose, Transform.validateRank, Transform.harmonicSum, NumPy.item, sl,
      bind, Except.bind, pure, Except.pure, List.range_succ_eq_map]
    rw [Finset.sum_eq_single 0 (fun i _ hi => by simp [hi]) (by simp)]
    rw [if_pos rfl, map_ofNat]
    norm_num

/-- the product of coefficients and functions, summed, by number of coefficients. -/
private theorem combine_cases {R X : Type} [Semiring R] (n : ℕ) (g : ℕ → X → R) (fp : List R) :
    (n ≤ fp.length → (do
      let terms ← NumPy.broadcast (fun (c : R) (s : X → R) => fun x => c * s x) (fp.take n) ((List.range n).map g)
      return fun x => (terms.map fun t => t x).sum : Except Err (X → R)) = .ok fun x => ∑ p ∈ Finset.range n, fp.getD p 0 * g p x) ∧
    (2 ≤ n → fp.length < n → fp.length ≠ 1 → (do
      let terms ← NumPy.broadcast (fun (c : R) (s : X → R) => fun x => c * s x) (fp.take n) ((List.range n).map g)
      return fun x => (terms.map fun t => t x).sum : Except Err (X → R)) = .error .valueError) ∧
    (∀ c, 2 ≤ n → fp = [c] → (do
      let terms ← NumPy.broadcast (fun (c : R) (s : X → R) => fun x => c * s x) (fp.take n) ((List.range n).map g)
      return fun x => (terms.map fun t => t x).sum : Except Err (X → R)) = .ok fun x => ∑ p ∈ Finset.range n, c * g p x) ∧
    (n = 1 → fp = [] → (do
      let terms ← NumPy.broadcast (fun (c : R) (s : X → R) => fun x => c * s x) (fp.take n) ((List.range n).map g)
      return fun x => (terms.map fun t => t x).sum : Except Err (X → R)) = .ok fun _ => 0) := by
  have hsum : ∀ (f : ℕ → R), ((List.range n).map f).sum = ∑ p ∈ Finset.range n, f p := by
    intro f
    rw [← List.sum_toFinset _ List.nodup_range, List.toFinset_range]
  refine ⟨fun h => ?_, fun h2 h h1 => ?_, fun c h2 h => ?_, fun h1 h => ?_⟩
  · rw [NumPy.broadcast_of_length_eq _ _ _ (by simp [h])]
    simp only [bind, Except.bind, pure, Except.pure, Except.ok.injEq]
    funext x
    rw [← hsum]
    congr 1
    apply List.ext_getElem
    · simp [h]
    · intro i a b
      simp at b
      have : i < fp.length := by omega
      simp [this]
  · have htake : fp.take n = fp := List.take_of_length_le h.le
    rw [htake]
    have : NumPy.broadcast (fun (c : R) (s : X → R) => fun x => c * s x) fp ((List.range n).map g) = .error .valueError := by
      unfold NumPy.broadcast
      rw [if_neg (by simp; omega)]
      obtain ⟨m, rfl⟩ : ∃ m, n = m + 2 := ⟨n - 2, by omega⟩
      match fp, h1 with
      | [], _ => simp [List.range_succ_eq_map]
      | [_], h1 => simp at h1
      | a :: b :: t, _ => simp [List.range_succ_eq_map]
    rw [this]
    rfl
  · subst h
    have htake : [c].take n = [c] := List.take_of_length_le (by simp; omega)
    rw [htake]
    have : NumPy.broadcast (fun (c : R) (s : X → R) => fun x => c * s x) [c] ((List.range n).map g) =
        .ok (((List.range n).map g).map fun s x => c * s x) := by
      unfold NumPy.broadcast
      rw [if_neg (by simp; omega)]
    rw [this]
    simp only [bind, Except.bind, pure, Except.pure, Except.ok.injEq, List.map_map]
    funext x
    rw [← hsum]
    rfl
  · subst h h1
    rfl

omit [Fintype Pix] in
private theorem sp_ok (sl : Transform.Slepian (L ^ 2)) (synth : (Fin (L ^ 2) → ℂ) → Pix → ℂ) (h : sl.N ≤ sl.evecs.length) (fp : List ℂ) :
    slepianInverse sl synth fp = (do
      let terms ← NumPy.broadcast (fun (c : ℂ) (s : Pix → ℂ) => fun x => c * s x) (fp.take sl.N)
        ((List.range sl.N).map fun p => synth (sl.evecs.getD p 0))
      return fun x => (terms.map fun t => t x).sum) := by
  unfold slepianInverse
  rw [computeSp_ok sl synth (fun p => sl.evecs.getD p 0)]
  · rfl
  · intro p hp
    rw [List.mem_range] at hp
    have : p < sl.evecs.length := by omega
    simp [this]

omit [Fintype Pix] in
/-- C115.  The inverse transform sums the first `N` of `N` or more coefficients, the others are not read; fewer than `N` coefficients are
`ValueError`, except a single one. -/
theorem C115_inverse_partial (sl : Transform.Slepian (L ^ 2)) (synth : (Fin (L ^ 2) → ℂ) → Pix → ℂ) (h : sl.N ≤ sl.evecs.length)
    (fp : List ℂ) :
    (sl.N ≤ fp.length →
      slepianInverse sl synth fp = .ok fun x => ∑ p ∈ Finset.range sl.N, fp.getD p 0 * synth (sl.evecs.getD p 0) x) ∧
    (2 ≤ sl.N → fp.length < sl.N → fp.length ≠ 1 → slepianInverse sl synth fp = .error .valueError) := by
  rw [sp_ok sl synth h]
  exact ⟨(combine_cases _ _ fp).1, (combine_cases _ _ fp).2.1⟩

omit [Fintype Pix] in
/-- C115 is violated: a single coefficient is not refused where more are needed, it is used for all functions; and no coefficient at all is
not refused where one is needed. -/
theorem C115_inverse_violation (sl : Transform.Slepian (L ^ 2)) (synth : (Fin (L ^ 2) → ℂ) → Pix → ℂ) (h : sl.N ≤ sl.evecs.length) :
    (2 ≤ sl.N → ∀ c : ℂ, slepianInverse sl synth [c] = slepianInverse sl synth (List.replicate sl.N c) ∧
      slepianInverse sl synth [c] = .ok fun x => ∑ p ∈ Finset.range sl.N, c * synth (sl.evecs.getD p 0) x) ∧
    (sl.N = 1 → slepianInverse sl synth [] = .ok fun _ => 0) := by
  constructor
  · intro h2 c
    have h1 : slepianInverse sl synth [c] = .ok fun x => ∑ p ∈ Finset.range sl.N, c * synth (sl.evecs.getD p 0) x := by
      rw [sp_ok sl synth h]
      exact (combine_cases _ _ [c]).2.2.1 c h2 rfl
    refine ⟨?_, h1⟩
    rw [h1, ((C115_inverse_partial sl synth h (List.replicate sl.N c)).1 (by simp))]
    congr 1
    funext x
    refine Finset.sum_congr rfl fun p hp => ?_
    rw [Finset.mem_range] at hp
    simp [hp]
  · intro h1
    rw [sp_ok sl synth h]
    exact (combine_cases _ _ []).2.2.2 h1 rfl

/-- the hypotheses are met with values that differ: with the functions `1` and `i` at one point, the coefficients 3 and 5 give `3 + 5 i`,
a third coefficient changes nothing, and 3 alone gives `3 + 3 i`. -/
example : ∃ (sl : Transform.Slepian (2 ^ 2)) (synth : (Fin (2 ^ 2) → ℂ) → Unit → ℂ), sl.N = 2 ∧ sl.N ≤ sl.evecs.length ∧
    slepianInverse sl synth [3, 5] = .ok (fun _ => 3 + 5 * Complex.I) ∧
    slepianInverse sl synth [3, 5, 7] = .ok (fun _ => 3 + 5 * Complex.I) ∧
    slepianInverse sl synth [3] = .ok (fun _ => 3 + 3 * Complex.I) ∧ slepianInverse sl synth [] = .error .valueError := by
  let sl : Transform.Slepian (2 ^ 2) := ⟨2, [1, 1, 0, 0], [fun i => if i = 0 then 1 else 0, fun i => if i = 0 then Complex.I else 0]⟩
  have h : sl.N ≤ sl.evecs.length := le_rfl
  refine ⟨sl, fun c _ => c 0, rfl, h, ?_, ?_, ?_, ?_⟩
  · rw [(C115_inverse_partial sl _ h _).1 (by simp [sl])]
    simp [sl, Finset.sum_range_succ]
  · rw [(C115_inverse_partial sl _ h _).1 (by simp [sl])]
    simp [sl, Finset.sum_range_succ]
  · rw [((C115_inverse_violation sl _ h).1 (by simp [sl]) _).2]
    simp [sl, Finset.sum_range_succ]
  · exact (C115_inverse_partial sl _ h []).2 (by simp [sl]) (by simp [sl]) (by simp)

/-! ### meshes -/

open Sleplet.MeshT in
section

variable {V : Type} [Fintype V] {K : ℕ}

private theorem mesh_all_error (ms : MeshT.MeshSlepian V) (inp : MeshT.Inputs V) (e : Err) (r : ℕ) (hr : MeshT.decompose ms inp r = .error e)
    (rs ts : List ℕ) (hrs : ∀ q ∈ rs, ∃ c, MeshT.decompose ms inp q = .ok c) :
    MeshT.decomposeAll ms inp (rs ++ r :: ts) = .error e := by
  induction rs with
  | nil => simp [MeshT.decomposeAll, hr, bind, Except.bind]
  | cons q rs ih =>
    obtain ⟨c, hc⟩ := hrs q (by simp)
    simp [MeshT.decomposeAll, hc, ih fun q hq => hrs q (by simp [hq]), bind, Except.bind]

/-- a signal on a mesh: its values, or one Fourier coefficient for each basis function. -/
def MeshSignal (K : ℕ) (inp : MeshT.Inputs V) : Prop :=
  (∃ a : Fin K → ℝ, inp.ui = some (List.ofFn a)) ∨ (inp.ui = none ∧ ∃ u, inp.u = some u)

private theorem mesh_rank_ok {ms : MeshT.MeshSlepian V} {φ : Fin K → V → ℝ} {e : Fin K → ℝ} {S : Fin K → Fin K → ℝ} {rows : ℕ}
    (h : BuiltMesh ms φ e S rows) (inp : MeshT.Inputs V) (hinp : MeshSignal K inp) (rank : ℕ) (hr : rank < rows) :
    ∃ c, MeshT.decompose ms inp rank = .ok c := by
  have hK : rank < K := by have := h.rows_le; omega
  obtain ⟨hS, he⟩ := h.row ⟨rank, hK⟩ hr
  obtain ⟨h1, h2, h3⟩ := MeshT.decompose_values ms φ h.basis rank (by rw [h.number]; exact hK) _ _ hS he
  obtain ⟨u, ui, mask⟩ := inp
  rcases hinp with ⟨a, ha⟩ | ⟨ha, u', hu⟩
  · cases ha
    exact ⟨_, h1 a u mask⟩
  · cases ha
    cases hu
    cases mask with
    | true => exact ⟨_, h2 u'⟩
    | false => exact ⟨_, h3 u'⟩

private theorem mesh_rank_missing {ms : MeshT.MeshSlepian V} {φ : Fin K → V → ℝ} {e : Fin K → ℝ} {S : Fin K → Fin K → ℝ} {rows : ℕ}
    (h : BuiltMesh ms φ e S rows) (inp : MeshT.Inputs V) (hinp : MeshSignal K inp) (hr : rows < K) :
    MeshT.decompose ms inp rows = .error .indexError := by
  have hv : NumPy.item ms.evecs rows = .error .indexError := by
    simp [NumPy.item, h.evecs]
  have hval : MeshT.validateRank ms.numBasis rows = .ok () := MeshT.validateRank_ok (by rw [h.number]; exact hr)
  obtain ⟨u, ui, mask⟩ := inp
  unfold MeshT.decompose
  rcases hinp with ⟨a, ha⟩ | ⟨ha, u', hu⟩
  · cases ha
    simp [MeshT.detectMethod, hval, bind, Except.bind, MeshT.harmonicSum, hv]
  · cases ha
    cases hu
    cases mask <;> simp [MeshT.detectMethod, hval, bind, Except.bind, MeshT.integrateMesh, MeshT.integrateRegionMethod, hv]

private theorem mesh_forward_eq (ms : MeshT.MeshSlepian V) (inp : MeshT.Inputs V) (hinp : MeshSignal K inp) (n : Option ℕ) :
    MeshT.slepianMeshForward ms inp n = MeshT.decomposeAll ms inp (List.range (n.getD ms.N)) := by
  obtain ⟨u, ui, mask⟩ := inp
  unfold MeshT.slepianMeshForward
  rcases hinp with ⟨a, ha⟩ | ⟨ha, u', hu⟩
  · cases ha
    simp [MeshT.detectMethod, bind, Except.bind]
  · cases ha
    cases hu
    cases mask <;> simp [MeshT.detectMethod, bind, Except.bind]

/-- C115 on meshes: up to the number of eigenvectors at hand a request gives exactly that many coefficients, the first ones of any longer
request; beyond it is `IndexError`, and `ValueError` when all eigenvectors are at hand. -/
theorem C115_mesh_forward (ms : MeshT.MeshSlepian V) (φ : Fin K → V → ℝ) (e : Fin K → ℝ) (S : Fin K → Fin K → ℝ) (rows : ℕ)
    (h : BuiltMesh ms φ e S rows) (inp : MeshT.Inputs V) (hinp : MeshSignal K inp) :
    (∃ cs : List ℝ, cs.length = rows ∧ (∀ k ≤ rows, MeshT.slepianMeshForward ms inp (some k) = .ok (cs.take k)) ∧
      MeshT.slepianMeshForward ms inp none = .ok (cs.take ms.N)) ∧
    ∀ k, rows < k → (rows < K → MeshT.slepianMeshForward ms inp (some k) = .error .indexError) ∧
      (rows = K → MeshT.slepianMeshForward ms inp (some k) = .error .valueError) := by
  constructor
  · have hex : ∀ r, ∃ c, r < rows → MeshT.decompose ms inp r = .ok c := by
      intro r
      by_cases hr : r < rows
      · obtain ⟨c, hc⟩ := mesh_rank_ok h inp hinp r hr
        exact ⟨c, fun _ => hc⟩
      · exact ⟨0, fun h => absurd h hr⟩
    choose g hg using hex
    have hall : ∀ j ≤ rows, MeshT.decomposeAll ms inp (List.range j) = .ok (((List.range rows).map g).take j) := by
      intro j hj
      rw [← List.map_take, List.take_range, min_eq_left hj]
      exact MeshT.decomposeAll_ok ms inp g _ fun r hr => hg r (by rw [List.mem_range] at hr; omega)
    refine ⟨(List.range rows).map g, by simp, fun k hk => ?_, ?_⟩
    · rw [mesh_forward_eq ms inp hinp]
      exact hall k hk
    · rw [mesh_forward_eq ms inp hinp]
      exact hall _ h.le_rows
  · intro k hk
    obtain ⟨ts, hts⟩ := range_split hk
    have hok : ∀ q ∈ List.range rows, ∃ c, MeshT.decompose ms inp q = .ok c := fun q hq =>
      mesh_rank_ok h inp hinp q (by rwa [List.mem_range] at hq)
    rw [mesh_forward_eq ms inp hinp]
    change (_ → MeshT.decomposeAll ms inp (List.range k) = _) ∧ (_ → MeshT.decomposeAll ms inp (List.range k) = _)
    rw [hts]
    constructor
    · intro hr
      exact mesh_all_error ms inp _ _ (mesh_rank_missing h inp hinp hr) _ _ hok
    · intro hr
      refine mesh_all_error ms inp _ _ ((C33_mesh_method_selection ms φ h.basis).2.2 inp ?_ _ (Or.inr ?_)) _ _ hok
      · rcases hinp with ⟨a, ha⟩ | ⟨-, u, hu⟩
        · exact Or.inr (by rw [ha]; simp)
        · exact Or.inl (by rw [hu]; simp)
      · rw [h.number, hr]

private theorem mesh_sp_ok {ms : MeshT.MeshSlepian V} {φ : Fin K → V → ℝ} {e : Fin K → ℝ} {S : Fin K → Fin K → ℝ} {rows : ℕ}
    (h : BuiltMesh ms φ e S rows) (fp : List ℝ) : ∃ g : ℕ → V → ℝ, (∀ p : Fin K, g p = fun v => ∑ i, S p i * φ i v) ∧
    MeshT.slepianMeshInverse ms fp = (do
      let terms ← NumPy.broadcast (fun (c : ℝ) (s : V → ℝ) => fun x => c * s x) (fp.take ms.N) ((List.range ms.N).map g)
      return fun x => (terms.map fun t => t x).sum) := by
  refine ⟨fun p v => if hp : p < K then ∑ i, S ⟨p, hp⟩ i * φ i v else 0, fun p => by funext v; simp, ?_⟩
  unfold MeshT.slepianMeshInverse
  rw [MeshT.computeSp_ok ms (fun p v => if hp : p < K then ∑ i, S ⟨p, hp⟩ i * φ i v else 0)]
  · rfl
  · intro p hp
    rw [List.mem_range] at hp
    have hr : p < rows := by have := h.le_rows; omega
    have hK : p < K := by have := h.rows_le; omega
    refine ⟨_, (h.row ⟨p, hK⟩ hr).1, ?_⟩
    rw [h.basis, MeshT.meshInverse_ofFn]
    simp [hK]

/-- C115 on meshes: the inverse reads the first `N` of `N` or more coefficients, refuses fewer, and repeats a single one. -/
theorem C115_mesh_inverse (ms : MeshT.MeshSlepian V) (φ : Fin K → V → ℝ) (e : Fin K → ℝ) (S : Fin K → Fin K → ℝ) (rows : ℕ)
    (h : BuiltMesh ms φ e S rows) (fp : List ℝ) :
    let s : Fin ms.N → V → ℝ := fun p v => ∑ i, S ⟨p, by have := h.le_rows; have := h.rows_le; omega⟩ i * φ i v
    (ms.N ≤ fp.length → MeshT.slepianMeshInverse ms fp = .ok fun v => ∑ p : Fin ms.N, fp.getD p 0 * s p v) ∧
    (2 ≤ ms.N → fp.length < ms.N → fp.length ≠ 1 → MeshT.slepianMeshInverse ms fp = .error .valueError) ∧
    (2 ≤ ms.N → ∀ c, MeshT.slepianMeshInverse ms [c] = .ok fun v => ∑ p : Fin ms.N, c * s p v) := by
  intro s
  have hNK : ms.N ≤ K := h.le_rows.trans h.rows_le
  obtain ⟨g, hg, heq⟩ := mesh_sp_ok h fp
  have hs : ∀ p : Fin ms.N, g p = s p := fun p => hg ⟨p, by omega⟩
  refine ⟨fun hN => ?_, fun h2 hN h1 => ?_, fun h2 c => ?_⟩
  · rw [heq, (combine_cases _ _ fp).1 hN]
    congr 1
    funext v
    rw [Finset.sum_range]
    simp only [hs]
  · rw [heq, (combine_cases _ _ fp).2.1 h2 hN h1]
  · obtain ⟨g', hg', heq'⟩ := mesh_sp_ok h [c]
    rw [heq', (combine_cases _ _ [c]).2.2.1 c h2 rfl]
    congr 1
    funext v
    rw [Finset.sum_range]
    refine Finset.sum_congr rfl fun p _ => ?_
    rw [show g' p = s p from hg' ⟨p, by omega⟩]

/-- the signals exist: values on two vertices, and two Fourier coefficients; `C32` shows a built mesh. -/
example : MeshSignal (V := Fin 2) 2 ⟨some ![3, 4], none, true⟩ ∧ MeshSignal (V := Fin 2) 2 ⟨none, some [3, 4], false⟩ :=
  ⟨Or.inr ⟨rfl, _, rfl⟩, Or.inl ⟨![3, 4], by simp⟩⟩

end

end Sleplet.Props
