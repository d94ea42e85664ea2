import Mathlib.Tactic.Ring
import Mathlib.Tactic.Common
import Mathlib.Tactic.NormNum
import Verif.Model.SharedMemory

/-!
C80: shared memory blocks.
-/
namespace Sleplet.Props

open Sleplet.Shm

/-! ### workers do not disturb each other -/

/-- an event of worker `w` on the handles of that worker. -/
def localStep (w : ℕ) (exist : ℕ → Bool) (o : ℕ → Bool) : Ev → Option (ℕ → Bool)
  | .attach w' b => if w' = w ∧ exist b = true then some (Function.update o b true) else none
  | .touch (some w') b => if w' = w ∧ o b = true then some o else none
  | .close (some w') b => if w' = w then some (Function.update o b false) else none
  | _ => none

def localRun (w : ℕ) (exist : ℕ → Bool) (o : ℕ → Bool) : List Ev → Option (ℕ → Bool)
  | [] => some o
  | e :: es => (localStep w exist o e).bind fun o' => localRun w exist o' es

theorem apply_of_local {w : ℕ} {s : St} {e : Ev} {o : ℕ → Bool} (h : localStep w s.exist (s.opened (some w)) e = some o) :
    e.apply s = some ⟨s.exist, Function.update s.opened (some w) o⟩ := by
  cases e with
  | create b => cases h
  | unlink b => cases h
  | attach w' b =>
    unfold localStep at h
    dsimp only at h
    split at h
    · rename_i hc
      obtain ⟨rfl, hb⟩ := hc
      injection h with h
      simp [Ev.apply, hb, ← h]
    · cases h
  | touch hd b =>
    cases hd with
    | none => cases h
    | some w' =>
      unfold localStep at h
      dsimp only at h
      split at h
      · rename_i hc
        obtain ⟨rfl, hb⟩ := hc
        injection h with h
        simp [Ev.apply, hb, ← h]
      · cases h
  | close hd b =>
    cases hd with
    | none => cases h
    | some w' =>
      unfold localStep at h
      dsimp only at h
      split at h
      · rename_i hc
        subst hc
        injection h with h
        simp [Ev.apply, ← h]
      · cases h

theorem run_shuffle {ps : ℕ → List Ev} {t : List Ev} (h : Shuffle ps t) : ∀ {s : St} {o : ℕ → ℕ → Bool},
    (∀ w, localRun w s.exist (s.opened (some w)) (ps w) = some (o w)) →
    run s t = some ⟨s.exist, fun hd => hd.elim (s.opened none) o⟩ := by
  induction h with
  | nil ps hps =>
    intro s o ho
    have hs : ∀ w, s.opened (some w) = o w := by
      intro w
      have := ho w
      rw [hps w] at this
      exact Option.some.inj this
    show some s = _
    congr 1
    obtain ⟨ex, op⟩ := s
    congr 1
    funext hd
    cases hd with
    | none => rfl
    | some w => exact hs w
  | cons ps w e rest t hw hrest ih =>
    intro s o ho
    have h1 := ho w
    rw [hw] at h1
    simp only [localRun] at h1
    obtain ⟨o', h2, h3⟩ := Option.bind_eq_some_iff.1 h1
    simp only [run, apply_of_local h2, Option.bind]
    have := ih (s := ⟨s.exist, Function.update s.opened (some w) o'⟩) (o := o) (by
      intro v
      by_cases hv : v = w
      · subst hv
        simpa using h3
      · have := ho v
        simpa [Function.update_of_ne hv, hv] using this)
    rw [this]
    simp

theorem localRun_append (w : ℕ) (ex o : ℕ → Bool) (a b : List Ev) :
    localRun w ex o (a ++ b) = (localRun w ex o a).bind fun o' => localRun w ex o' b := by
  induction a generalizing o with
  | nil => rfl
  | cons e es ih =>
    simp only [List.cons_append, localRun]
    cases localStep w ex o e with
    | none => rfl
    | some o' => exact ih o'

theorem run_append (s : St) (a b : List Ev) : run s (a ++ b) = (run s a).bind fun s' => run s' b := by
  induction a generalizing s with
  | nil => rfl
  | cons e es ih =>
    simp only [List.cons_append, run]
    cases e.apply s with
    | none => rfl
    | some s' => exact ih s'

/-! ### one worker -/

theorem local_attach (w n : ℕ) (ex o : ℕ → Bool) (hex : ∀ b < n, ex b = true) :
    localRun w ex o ((List.range n).map (Ev.attach w)) = some fun b => if b < n then true else o b := by
  induction n with
  | zero => simp [localRun]
  | succ n ih =>
    rw [List.range_succ, List.map_append, localRun_append, ih (fun b hb => hex b (by omega))]
    simp only [Option.bind, List.map, localRun, localStep, hex n (by omega), and_self, if_true]
    congr 1
    funext b
    by_cases hb : b = n
    · subst hb; simp
    · rw [Function.update_of_ne hb]
      have : b < n + 1 ↔ b < n := by omega
      simp [this]

theorem local_close (w n : ℕ) (ex o : ℕ → Bool) :
    localRun w ex o ((List.range n).map (Ev.close (some w))) = some fun b => if b < n then false else o b := by
  induction n with
  | zero => simp [localRun]
  | succ n ih =>
    rw [List.range_succ, List.map_append, localRun_append, ih]
    simp only [Option.bind, List.map, localRun, localStep, if_true]
    congr 1
    funext b
    by_cases hb : b = n
    · subst hb; simp
    · rw [Function.update_of_ne hb]
      have : b < n + 1 ↔ b < n := by omega
      simp [this]

theorem local_touch (w : ℕ) (ex o : ℕ → Bool) (work : List ℕ) (h : ∀ b ∈ work, o b = true) :
    localRun w ex o (work.map (Ev.touch (some w))) = some o := by
  induction work with
  | nil => rfl
  | cons b bs ih =>
    simp only [List.map, localRun, localStep, h b (by simp), and_self, if_true, Option.bind]
    exact ih fun c hc => h c (by simp [hc])

theorem local_worker (blocks w : ℕ) (work : List ℕ) (raised : Bool) (ex : ℕ → Bool) (hex : ∀ b < blocks, ex b = true)
    (hwork : ∀ b ∈ work, b < blocks) :
    localRun w ex (fun _ => false) (worker blocks w work raised) = some fun b => raised && decide (b < blocks) := by
  unfold worker
  rw [localRun_append, localRun_append, local_attach w blocks ex _ hex]
  simp only [Option.bind]
  rw [local_touch w ex _ work (fun b hb => by simp [hwork b hb])]
  cases raised with
  | true =>
    simp [localRun]
  | false =>
    simp only [Bool.false_eq_true, if_false]
    rw [local_close]
    congr 1
    funext b
    by_cases hb : b < blocks <;> simp [hb]

/-! ### the main thread -/

theorem createAll_ok : ∀ (sizes : List ℕ) (b : ℕ), (∀ x ∈ sizes, x ≠ 0) →
    createAll b sizes = ((List.range' b sizes.length).map Ev.create, .ok ())
  | [], b, _ => rfl
  | x :: xs, b, h => by
    have ih := createAll_ok xs (b + 1) (fun y hy => h y (by simp [hy]))
    simp [createAll, h x (by simp), ih, List.range'_succ]

theorem run_create (n b : ℕ) : ∀ (s : St), (∀ c, b ≤ c → s.exist c = false) →
    run s ((List.range' b n).map Ev.create) = some ⟨fun c => if b ≤ c ∧ c < b + n then true else s.exist c,
      Function.update s.opened none fun c => if b ≤ c ∧ c < b + n then true else s.opened none c⟩ := by
  induction n generalizing b with
  | zero =>
    intro s _
    have : ∀ c, (b ≤ c ∧ c < b + 0) = False := by intro c; simp only [eq_iff_iff, iff_false]; omega
    simp only [this, if_false, Function.update_eq_self]
    rfl
  | succ n ih =>
    intro s hs
    rw [List.range'_succ]
    simp only [List.map, run, Ev.apply, hs b le_rfl, Bool.false_eq_true, if_false, Option.bind]
    rw [ih (b + 1)] <;> dsimp only
    · congr 2
      · funext c
        by_cases hc : c = b
        · subst hc; simp
        · rw [Function.update_of_ne hc]
          have : (b + 1 ≤ c ∧ c < b + 1 + n) ↔ (b ≤ c ∧ c < b + (n + 1)) := by omega
          simp only [this]
      · rw [Function.update_idem]
        congr 1
        funext c
        simp only [Function.update_self]
        by_cases hc : c = b
        · subst hc; simp
        · rw [Function.update_of_ne hc]
          have : (b + 1 ≤ c ∧ c < b + 1 + n) ↔ (b ≤ c ∧ c < b + (n + 1)) := by omega
          simp only [this]
    · intro c hc
      rw [Function.update_of_ne (by omega)]
      exact hs c (by omega)

theorem run_touch (s : St) (n : ℕ) (h : ∀ b < n, s.opened none b = true) : run s ((List.range n).map (Ev.touch none)) = some s := by
  induction n with
  | zero => rfl
  | succ n ih =>
    rw [List.range_succ, List.map_append, run_append, ih fun b hb => h b (by omega)]
    simp [run, Ev.apply, h n (by omega)]

theorem run_close (s : St) (n : ℕ) : run s ((List.range n).map (Ev.close none)) =
    some ⟨s.exist, Function.update s.opened none fun b => if b < n then false else s.opened none b⟩ := by
  induction n with
  | zero => simp [run]
  | succ n ih =>
    rw [List.range_succ, List.map_append, run_append, ih]
    simp only [Option.bind, List.map, run, Ev.apply, Function.update_idem, Function.update_self]
    congr 3
    funext b
    by_cases hb : b = n
    · subst hb; simp
    · rw [Function.update_of_ne hb]
      have : b < n + 1 ↔ b < n := by omega
      simp [this]

theorem run_unlink (s : St) (n : ℕ) (h : ∀ b < n, s.exist b = true) : run s ((List.range n).map Ev.unlink) =
    some ⟨fun b => if b < n then false else s.exist b, s.opened⟩ := by
  induction n with
  | zero => simp [run]
  | succ n ih =>
    rw [List.range_succ, List.map_append, run_append, ih fun b hb => h b (by omega)]
    simp only [Option.bind, List.map, run, Ev.apply, lt_irrefl, if_false, h n (by omega), if_true]
    congr 2
    funext b
    by_cases hb : b = n
    · subst hb; simp
    · rw [Function.update_of_ne hb]
      have : b < n + 1 ↔ b < n := by omega
      simp [this]

/-- the state after all blocks have been made. -/
theorem run_createAll (sizes : List ℕ) (h : ∀ x ∈ sizes, x ≠ 0) : run St.init (createAll 0 sizes).1 =
    some ⟨fun b => decide (b < sizes.length), Function.update (fun _ _ => false) none fun b => decide (b < sizes.length)⟩ := by
  rw [createAll_ok sizes 0 h, run_create _ _ _ (fun c _ => rfl)]
  congr 2
  · funext b
    by_cases hb : b < sizes.length <;> simp [St.init, hb]
  · congr 1
    funext b
    by_cases hb : b < sizes.length <;> simp [St.init, hb]

/-! ### the property -/

/-- Whatever the workers do and however they are interleaved: no block is used through a closed handle or after it is gone, and when a
build returns every block is unlinked, the handles of the main thread are closed, and a worker's handles are open exactly if that
worker raised an exception. -/
theorem C80_released_partial (sizes : List ℕ) (ncpu : Except Err ℤ) (work : ℕ → List ℕ × Bool) (hwork : ∀ w, ∀ b ∈ (work w).1, b < sizes.length)
    (t : List Ev) (h : Builds sizes ncpu work t (.ok ())) :
    ∃ st, run St.init t = some st ∧ (∀ b, st.exist b = false) ∧ (∀ b, st.opened none b = false) ∧
      ∃ n : ℤ, ncpu = .ok n ∧ ∀ w b, st.opened (some w) b = true ↔ (w : ℤ) < n ∧ (work w).2 = true ∧ b < sizes.length := by
  cases h with
  | done t u n hc hn hpos hu =>
    have hsizes : ∀ x ∈ sizes, x ≠ 0 := by
      have : ∀ (l : List ℕ) (b : ℕ), (createAll b l).2 = .ok () → ∀ x ∈ l, x ≠ 0 := by
        intro l
        induction l with
        | nil => intro b _ x hx; cases hx
        | cons y ys ih =>
          intro b hb x hx
          unfold createAll at hb
          split at hb
          · cases hb
          · rename_i hy
            rcases List.mem_cons.1 hx with rfl | hx
            · exact hy
            · exact ih _ hb x hx
      exact this sizes 0 (by rw [hc])
    have h1 := run_createAll sizes hsizes
    rw [hc] at h1
    dsimp only at h1
    have h2 := run_shuffle hu (s := ⟨fun b => decide (b < sizes.length),
        Function.update (fun _ _ => false) none fun b => decide (b < sizes.length)⟩)
      (o := fun w b => decide ((w : ℤ) < n) && ((work w).2 && decide (b < sizes.length))) (by
        intro w
        by_cases hw : (w : ℤ) < n
        · simp only [hw, if_true]
          have := local_worker sizes.length w (work w).1 (work w).2 (fun b => decide (b < sizes.length)) (fun b hb => by simp [hb]) (hwork w)
          simpa using this
        · simp only [hw, if_false]
          simp [localRun])
    rw [run_append, run_append, run_append, run_append, h1]
    simp only [Option.bind, h2]
    rw [run_touch _ _ (fun b hb => by simp [hb])]
    simp only [run_close]
    rw [run_unlink _ _ (fun b hb => by simp [hb])]
    refine ⟨_, rfl, ?_, ?_, n, hn, ?_⟩
    · intro b
      by_cases hb : b < sizes.length <;> simp [hb]
    · intro b
      by_cases hb : b < sizes.length <;> simp [hb]
    · intro w b
      simp

/-- A build returns exactly if there is no matrix of size zero and `NCPU`, `4` if it is not set, is a positive number. -/
theorem C80_success (toInt : String → Option ℤ) (env : Option String) (sizes : List ℕ) (work : ℕ → List ℕ × Bool) :
    (∃ t, Builds sizes (ncpuOf toInt env) work t (.ok ())) ↔ (∀ x ∈ sizes, x ≠ 0) ∧ ∃ n, toInt (env.getD "4") = some n ∧ 0 < n := by
  constructor
  · rintro ⟨t, h⟩
    cases h with
    | done t u n hc hn hpos hu =>
      refine ⟨?_, n, ?_, hpos⟩
      · intro x hx
        by_contra hx0
        subst hx0
        have : ∀ (l : List ℕ) (b : ℕ), 0 ∈ l → (createAll b l).2 = .error .valueError := by
          intro l
          induction l with
          | nil => intro b hb; cases hb
          | cons y ys ih =>
            intro b hb
            unfold createAll
            split
            · rfl
            · rename_i hy
              rcases List.mem_cons.1 hb with h0 | hb
              · exact absurd h0.symm hy
              · exact ih _ hb
        have := this sizes 0 hx
        rw [hc] at this
        cases this
      · unfold ncpuOf at hn
        split at hn
        · rename_i m hm
          injection hn with hn
          rw [hm, hn]
        · cases hn
  · rintro ⟨hs, n, hn, hpos⟩
    have shuffles : ∀ (k : ℕ) (ps : ℕ → List Ev), (∀ w, k ≤ w → ps w = []) → ∃ u, Shuffle ps u := by
      intro k
      induction k with
      | zero => exact fun ps h => ⟨[], .nil ps fun w => h w (Nat.zero_le w)⟩
      | succ k ih =>
        intro ps h
        generalize hk : ps k = l
        induction l generalizing ps with
        | nil =>
          refine ih ps fun w hw => ?_
          rcases Nat.eq_or_lt_of_le hw with rfl | hw
          · exact hk
          · exact h w hw
        | cons e es ih' =>
          obtain ⟨u, hu⟩ := ih' (Function.update ps k es) (fun w hw => by rw [Function.update_of_ne (by omega)]; exact h w hw) (by simp)
          exact ⟨e :: u, .cons ps k e es u hk hu⟩
    obtain ⟨u, hu⟩ := shuffles n.toNat
      (fun w => if (w : ℤ) < n then worker sizes.length w (work w).1 (work w).2 else []) (fun w hw => if_neg (by omega))
    exact ⟨_, .done _ u n (createAll_ok sizes 0 hs) (by unfold ncpuOf; rw [hn]) hpos hu⟩

/-- If `NCPU` is not a positive number the build raises `ValueError` after the blocks have been made, and they stay: neither
closed nor unlinked. -/
theorem C80_leak_violation (toInt : String → Option ℤ) (env : Option String) (sizes : List ℕ) (work : ℕ → List ℕ × Bool)
    (hs : ∀ x ∈ sizes, x ≠ 0) (henv : ∀ n, toInt (env.getD "4") = some n → n ≤ 0) :
    ∃ t, Builds sizes (ncpuOf toInt env) work t (.error .valueError) ∧ ∃ st, run St.init t = some st ∧
      ∀ b, (st.exist b = true ↔ b < sizes.length) ∧ (st.opened none b = true ↔ b < sizes.length) := by
  refine ⟨(createAll 0 sizes).1, ?_, _, run_createAll sizes hs, fun b => by simp⟩
  have hc : createAll 0 sizes = ((createAll 0 sizes).1, .ok ()) := by rw [createAll_ok sizes 0 hs]
  cases h : toInt (env.getD "4") with
  | none => exact .environment _ _ hc (by unfold ncpuOf; rw [h])
  | some n => exact .pool _ n hc (by unfold ncpuOf; rw [h]) (henv n h)

/-- The matrices of the library: nothing is left behind by a build whose first matrix has size zero; the sizes are positive for an
order below the bandlimit, a positive bandlimit, a positive number of basis functions; every block holds a square matrix of floats. -/
theorem C80_sizes (L m K : ℕ) :
    ((∀ x ∈ polarSizes L m, x ≠ 0) ↔ m < L) ∧ ((∀ x ∈ arbitrarySizes L, x ≠ 0) ↔ 0 < L) ∧ ((∀ x ∈ meshSizes K, x ≠ 0) ↔ 0 < K) ∧
    createAll 0 (polarSizes L L) = ([], .error .valueError) ∧ createAll 0 (arbitrarySizes 0) = ([], .error .valueError) ∧
    createAll 0 (meshSizes 0) = ([], .error .valueError) ∧
    polarSizes L m = [8 * (L - m) ^ 2] ∧ arbitrarySizes L = [8 * L ^ 4, 8 * L ^ 4] ∧ meshSizes K = [8 * K ^ 2] := by
  refine ⟨?_, ?_, ?_, ?_, rfl, rfl, ?_, ?_, ?_⟩
  · simp [polarSizes]; omega
  · simp [arbitrarySizes, Nat.pos_iff_ne_zero]
  · simp [meshSizes, Nat.pos_iff_ne_zero]
  · simp [polarSizes, createAll]
  · simp only [polarSizes, List.cons.injEq, and_true]; ring
  · simp only [arbitrarySizes, List.cons.injEq, and_true]; constructor <;> ring
  · simp only [meshSizes, List.cons.injEq, and_true]; ring

/-- two workers on the matrix of a mask of bandlimit two, the second raising after its first access. -/
example : ∃ t st, Builds (arbitrarySizes 2) (.ok 2) (fun w => if w = 1 then ([0], true) else ([0, 1, 0, 1], false)) t (.ok ()) ∧
    run St.init t = some st ∧ st.opened (some 1) 0 = true ∧ st.opened (some 0) 0 = false ∧ st.exist 0 = false := by
  obtain ⟨t, ht⟩ := (C80_success (fun _ => some 2) none (arbitrarySizes 2)
    (fun w => if w = 1 then ([0], true) else ([0, 1, 0, 1], false))).2 ⟨by simp [arbitrarySizes], 2, rfl, by norm_num⟩
  obtain ⟨st, h1, h2, -, n, hn, h3⟩ := C80_released_partial _ _ _ (by
    intro w b hb
    by_cases hw : w = 1 <;> simp [hw] at hb <;> simp [arbitrarySizes] <;> omega) t ht
  have hn : (2 : ℤ) = n := by unfold ncpuOf at hn; exact Except.ok.inj hn
  refine ⟨t, st, ht, h1, (h3 1 0).2 ⟨by rw [← hn]; norm_num, by simp, by simp [arbitrarySizes]⟩, ?_, h2 0⟩
  by_contra hc
  have := (h3 0 0).1 (by simpa using hc)
  simp at this

/-- `NCPU=0` and `NCPU=all` leave the blocks behind. -/
example (toInt : String → Option ℤ) (h0 : toInt "0" = some 0) (hall : toInt "all" = none) (work : ℕ → List ℕ × Bool) :
    ∀ s ∈ ["0", "all"], ∃ t st, Builds (meshSizes 5) (ncpuOf toInt (some s)) work t (.error .valueError) ∧
    run St.init t = some st ∧ st.exist 0 = true := by
  intro s hs
  obtain ⟨t, ht, st, h1, h2⟩ := C80_leak_violation toInt (some s) (meshSizes 5) work (by simp [meshSizes]) (by
    simp only [List.mem_cons, List.not_mem_nil, or_false] at hs
    rcases hs with rfl | rfl
    · simp [h0]
    · simp [hall])
  exact ⟨t, st, ht, h1, ((h2 0).1).2 (by simp [meshSizes])⟩

end Sleplet.Props
