import Mathlib.Algebra.Order.BigOperators.Group.Finset
import Verif.Model.Executor

/-!
A small rely–guarantee logic for the executor model.
-/
namespace Sleplet

variable {σ l : Type}

/-- `Good E R G c Q x s`: started in local state `x` and shared state `s`, while the environment changes the shared
state only along `R`, the program `c` raises only if `E` permits it, changes the shared state only along `G`, and
ends in `Q` if it did not raise. -/
def Good (E : Prop) (R G : σ → σ → Prop) : List (Act σ l) → (l → σ → Prop) → l → σ → Prop
  | [], Q, x, s => ∀ s', R s s' → Q x s'
  | a :: c, Q, x, s => ∀ s', R s s' →
    (E ∧ ∃ e, a s' x = .error e) ∨ ∃ s'' x', a s' x = .ok (s'', x') ∧ G s' s'' ∧ Good E R G c Q x' s''

theorem Good.stable {E : Prop} {R G : σ → σ → Prop} (htrans : ∀ a b c, R a b → R b c → R a c)
    {c : List (Act σ l)} {Q : l → σ → Prop} {x : l} {s s' : σ}
    (h : Good E R G c Q x s) (hr : R s s') : Good E R G c Q x s' := by
  cases c with
  | nil => exact fun s'' h' => h _ (htrans _ _ _ hr h')
  | cons a c => exact fun s'' h' => h _ (htrans _ _ _ hr h')

theorem Good.mono {E : Prop} {R G : σ → σ → Prop} {c : List (Act σ l)} {Q Q' : l → σ → Prop} {x : l} {s : σ}
    (hQ : ∀ x s, Q x s → Q' x s) (h : Good E R G c Q x s) : Good E R G c Q' x s := by
  induction c generalizing x s with
  | nil => exact fun s' h' => hQ _ _ (h s' h')
  | cons a c ih =>
    intro s' h'
    rcases h s' h' with he | ⟨s'', x', h1, h2, h3⟩
    · exact Or.inl he
    · exact Or.inr ⟨s'', x', h1, h2, ih h3⟩

theorem Good.append {E : Prop} {R G : σ → σ → Prop} (hrefl : ∀ a, R a a)
    {c d : List (Act σ l)} {Q : l → σ → Prop} {x : l} {s : σ}
    (h : Good E R G c (fun x s => Good E R G d Q x s) x s) : Good E R G (c ++ d) Q x s := by
  induction c generalizing x s with
  | nil =>
    exact h s (hrefl s)
  | cons a c ih =>
    intro s' h'
    rcases h s' h' with he | ⟨s'', x', h1, h2, h3⟩
    · exact Or.inl he
    · exact Or.inr ⟨s'', x', h1, h2, ih h3⟩

/-- Step rule with a stable assertion in front of an action. -/
theorem Good.cons {E : Prop} {R G : σ → σ → Prop} (M : l → σ → Prop) {a : Act σ l} {c : List (Act σ l)}
    {Q : l → σ → Prop} {x : l} {s : σ} (hM : M x s) (stable : ∀ x s s', M x s → R s s' → M x s')
    (step : ∀ s, M x s → (E ∧ ∃ e, a s x = .error e) ∨
      ∃ s'' x', a s x = .ok (s'', x') ∧ G s s'' ∧ Good E R G c Q x' s'') :
    Good E R G (a :: c) Q x s :=
  fun s' hr => step s' (stable _ _ _ hM hr)

/-- Loop rule: an indexed invariant carried through a list of iterations. -/
theorem Good.flatMap {ι : Type} {E : Prop} {R G : σ → σ → Prop} (hrefl : ∀ a, R a a)
    (body : ι → List (Act σ l)) (I : List ι → l → σ → Prop)
    (stable : ∀ done x s s', I done x s → R s s' → I done x s')
    (js : List ι)
    (step : ∀ done j x s, j ∈ js → I done x s → Good E R G (body j) (fun x s => I (done ++ [j]) x s) x s)
    (done : List ι) (x : l) (s : σ) (h : I done x s) :
    Good E R G (js.flatMap body) (fun x s => I (done ++ js) x s) x s := by
  induction js generalizing done x s with
  | nil =>
    intro s' h'
    simpa using stable _ _ _ _ h h'
  | cons j js ih =>
    rw [List.flatMap_cons]
    apply Good.append hrefl
    refine (step done j x s (by simp) h).mono ?_
    intro x s hI
    have := ih (fun done j x s hj => step done j x s (by simp [hj])) (done ++ [j]) x s hI
    simpa using this

/-- Soundness: tasks that are individually good, with each guarantee implying the others' relies: in every complete
run each task that did not raise reaches its postcondition, and if raising is not permitted none raises. -/
theorem PoolRun.post {E : Prop} {k : ℕ} {progs : Fin k → List (Act σ l)} {l0 : l} {s s' : σ}
    {ts' : Fin k → Task σ l} (R G : Fin k → σ → σ → Prop) (Q : Fin k → l → σ → Prop)
    (hrefl : ∀ i a, R i a a) (htrans : ∀ i a b c, R i a b → R i b c → R i a c)
    (hGR : ∀ i j, i ≠ j → ∀ a b, G i a b → R j a b)
    (hgood : ∀ i, Good E (R i) (G i) (progs i) (Q i) l0 s)
    (hrun : PoolRun progs l0 s s' ts') :
    ∀ i, ((ts' i).failed = none → Q i (ts' i).loc s') ∧ (¬ E → (ts' i).failed = none) := by
  obtain ⟨hreach, hdone⟩ := hrun
  have key : ∀ c : σ × (Fin k → Task σ l), Relation.ReflTransGen Step (s, startTasks progs l0) c →
      ∀ i, ((c.2 i).failed = none ∧ Good E (R i) (G i) (c.2 i).rem (Q i) (c.2 i).loc c.1) ∨
        (E ∧ (c.2 i).failed ≠ none ∧ (c.2 i).rem = []) := by
    intro c hc
    induction hc with
    | refl => intro i; exact Or.inl ⟨rfl, hgood i⟩
    | tail _ hstep ih =>
      intro i
      cases hstep with
      | run s1 s2 ts j a rest l' hrem hact =>
        rcases ih j with ⟨hnone, hj⟩ | ⟨_, _, hj⟩
        · simp only [hrem] at hj
          rcases hj s1 (hrefl j s1) with ⟨_, e, he⟩ | ⟨s2', l2', h1, h2, h3⟩
          · rw [hact] at he; cases he
          rw [hact] at h1
          injection h1 with h1
          injection h1 with h1a h1b
          subst h1a h1b
          by_cases hij : i = j
          · subst hij
            left
            simpa using ⟨hnone, h3⟩
          · rcases ih i with ⟨h4, h5⟩ | h4
            · left
              have := h5.stable (htrans i) (hGR j i (Ne.symm hij) _ _ h2)
              simpa [Function.update_of_ne hij] using ⟨h4, this⟩
            · right
              simpa [Function.update_of_ne hij] using h4
        · simp [hrem] at hj
      | die s1 ts j a rest e hrem hact =>
        rcases ih j with ⟨hnone, hj⟩ | ⟨_, _, hj⟩
        · simp only [hrem] at hj
          rcases hj s1 (hrefl j s1) with ⟨hE, _⟩ | ⟨s2', l2', h1, h2, h3⟩
          · by_cases hij : i = j
            · subst hij
              right
              simpa using hE
            · simpa [Function.update_of_ne hij] using ih i
          · rw [hact] at h1; cases h1
        · simp [hrem] at hj
  intro i
  rcases key _ hreach i with ⟨h1, h2⟩ | ⟨h1, h2, _⟩
  · simp only [hdone i] at h2
    exact ⟨fun _ => h2 s' (hrefl i s'), fun _ => h1⟩
  · exact ⟨fun h => absurd h h2, fun h => absurd h1 h⟩

/-- Every pool started anywhere can be run to completion (so statements about complete runs are not vacuous). -/
theorem exists_poolRun {k : ℕ} (progs : Fin k → List (Act σ l)) (l0 : l) (s : σ) :
    ∃ s' ts', PoolRun progs l0 s s' ts' := by
  suffices h : ∀ n (s : σ) (ts : Fin k → Task σ l), (∑ i, (ts i).rem.length) = n →
      ∃ s' ts', Relation.ReflTransGen Step (s, ts) (s', ts') ∧ AllDone ts' from
    h _ s (startTasks progs l0) rfl
  intro n
  induction n using Nat.strong_induction_on with
  | _ n ih =>
    intro s ts hn
    by_cases hd : AllDone ts
    · exact ⟨s, ts, .refl, hd⟩
    · simp only [AllDone, not_forall] at hd
      obtain ⟨i, hi⟩ := hd
      obtain ⟨a, rest, hrem⟩ := List.exists_cons_of_ne_nil hi
      have lt : ∀ t : Task σ l, t.rem.length ≤ rest.length →
          (∑ j, (Function.update ts i t j).rem.length) < n := by
        intro t ht
        rw [← hn]
        apply Finset.sum_lt_sum
        · intro j _
          by_cases hj : j = i
          · subst hj; simp [hrem]; omega
          · simp [Function.update_of_ne hj]
        · exact ⟨i, Finset.mem_univ _, by simp [hrem]; omega⟩
      cases hact : a s (ts i).loc with
      | ok p =>
        obtain ⟨s', ts', h1, h2⟩ := ih _ (lt ⟨rest, p.2, (ts i).failed⟩ (by simp)) p.1 _ rfl
        exact ⟨s', ts', .head (Step.run s p.1 ts i a rest p.2 hrem hact) h1, h2⟩
      | error e =>
        obtain ⟨s', ts', h1, h2⟩ := ih _ (lt ⟨[], (ts i).loc, some e⟩ (by simp)) s _ rfl
        exact ⟨s', ts', .head (Step.die s ts i a rest e hrem hact) h1, h2⟩

end Sleplet
