import Mathlib.Data.Complex.BigOperators
import Verif.Lemmas.RelyGuarantee
import Verif.Lemmas.Parallel
import Verif.Lemmas.Wigner
import Verif.Model.DMatrixReal

namespace Sleplet.RealMat

variable {E : Prop}

def Rely (own : ℕ → ℕ → ℕ) (C : ℕ → Prop) (s s' : Shared) : Prop := ∀ a b, C (own a b) → s' a b = s a b
def Guar (own : ℕ → ℕ → ℕ) (C : ℕ → Prop) (s s' : Shared) : Prop := ∀ a b, ¬ C (own a b) → s' a b = s a b

def Inv (own : ℕ → ℕ → ℕ) (T : ℕ → ℕ → ℝ) (C : ℕ → Prop) (K : ℕ → ℕ → Prop) (s : Shared) : Prop :=
  ∀ a b, K a b → C (own a b) ∧ s a b = T a b

theorem Inv.stable {own T C K} {s s' : Shared} (h : Inv own T C K s) (hr : Rely own C s s') : Inv own T C K s' :=
  fun a b hk => ⟨(h a b hk).1, (hr a b (h a b hk).1).trans (h a b hk).2⟩

theorem good_set {own T C K} (a b : ℕ) (hC : C (own a b)) (act : A) (val : Shared → ℝ)
    {c : List A} {Q : Unit → Shared → Prop} {x : Unit} {s : Shared}
    (hact : (∀ s, act s x = .ok (setEntry s a b (val s), ())) ∨ (E ∧ ∃ e, ∀ s, act s x = .error e))
    (h : Inv own T C K s)
    (hval : (∀ s, act s x = .ok (setEntry s a b (val s), ())) → ∀ s, Inv own T C K s → val s = T a b)
    (hc : ∀ s, Inv own T C (fun x y => K x y ∨ (x = a ∧ y = b)) s → Good E (Rely own C) (Guar own C) c Q x s) :
    Good E (Rely own C) (Guar own C) (act :: c) Q x s := by
  refine Good.cons (fun _ s => Inv own T C K s) h (fun _ s s' h hr => h.stable hr) ?_
  intro s h
  rcases hact with hact | ⟨hE, e, he⟩
  swap
  · exact Or.inl ⟨hE, e, he s⟩
  refine Or.inr ⟨_, _, hact s, ?_, hc _ ?_⟩
  · intro p q hpq
    have : ¬ (p = a ∧ q = b) := by rintro ⟨rfl, rfl⟩; exact hpq hC
    simp [setEntry, this]
  · intro p q hk
    by_cases hpq : p = a ∧ q = b
    · obtain ⟨rfl, rfl⟩ := hpq
      exact ⟨hC, by simp [setEntry, hval hact s h]⟩
    · have hk' := hk.resolve_right hpq
      refine ⟨(h p q hk').1, ?_⟩
      simp only [setEntry, hpq, if_false]
      exact (h p q hk').2

/-- an entry computation gives the target, or raises and raising is permitted. -/
def EntryOk (E : Prop) (entry : ℕ → ℕ → Except Err ℝ) (T : ℕ → ℕ → ℝ) (a b : ℕ) : Prop :=
  entry a b = .ok (T a b) ∨ (E ∧ ∃ e, entry a b = .error e)

theorem good_write {own T C K} (a b : ℕ) (hC : C (own a b)) {entry : ℕ → ℕ → Except Err ℝ}
    (he : EntryOk E entry T a b) {c : List A} {Q : Unit → Shared → Prop} {x : Unit} {s : Shared}
    (h : Inv own T C K s)
    (hc : ∀ s, Inv own T C (fun x y => K x y ∨ (x = a ∧ y = b)) s → Good E (Rely own C) (Guar own C) c Q x s) :
    Good E (Rely own C) (Guar own C) (write a b (entry a b) :: c) Q x s := by
  refine good_set a b hC _ (fun _ => T a b) ?_ h (fun _ _ _ => rfl) hc
  rcases he with he | ⟨hE, e, he⟩
  · left; intro s; simp [write, he]
  · right; exact ⟨hE, e, fun s => by simp [write, he]⟩

/-- generic pool theorem: if each helper establishes the cells it owns, all cells owned by surviving tasks are right. -/
theorem pool_post {own : ℕ → ℕ → ℕ} {T : ℕ → ℕ → ℝ} {n : ℕ} {helper : ℕ → List A} (cells : ℕ → ℕ → ℕ → Prop)
    (hhelper : ∀ (C K) (i : ℕ), i < n → C i → ∀ x s, Inv own T C K s →
      Good E (Rely own C) (Guar own C) (helper i) (fun _ s => Inv own T C (fun a b => K a b ∨ cells i a b) s) x s)
    {ncpu : ℕ} (hpos : 1 ≤ ncpu) {s' : Shared} {ts' : Fin ncpu → Task Shared Unit}
    (h : PoolRun (programs n helper ncpu) () (fun _ _ => 0) s' ts') (t : Fin ncpu) :
    ((ts' t).failed = none → ∀ i ∈ (Parallel.splitArrIntoChunks n ncpu).getD t [], ∀ a b, cells i a b →
      s' a b = T a b) ∧ (¬ E → (ts' t).failed = none) := by
  refine PoolRun.post (E := E) (fun t => Rely own (· ∈ (Parallel.splitArrIntoChunks n ncpu).getD t []))
    (fun t => Guar own (· ∈ (Parallel.splitArrIntoChunks n ncpu).getD t []))
    (fun t _ s => ∀ i ∈ (Parallel.splitArrIntoChunks n ncpu).getD t [], ∀ a b, cells i a b → s a b = T a b)
    (fun t a p q _ => rfl) (fun t a b c h1 h2 p q hpq => (h2 p q hpq).trans (h1 p q hpq)) ?_ ?_ h t
  · intro t u htu a b hG p q hpq
    refine hG p q ?_
    intro hx
    exact htu (Fin.ext (Parallel.chunks_disjoint _ _ hpos _ _ _ hx hpq))
  · intro t
    have hloop := Good.flatMap (E := E) (R := Rely own (· ∈ (Parallel.splitArrIntoChunks n ncpu).getD t []))
      (G := Guar own (· ∈ (Parallel.splitArrIntoChunks n ncpu).getD t [])) (fun a p q _ => rfl) helper
      (fun done _ s => Inv own T (· ∈ (Parallel.splitArrIntoChunks n ncpu).getD t [])
        (fun a b => ∃ i ∈ done, cells i a b) s)
      (fun done x s s' h hr => h.stable hr) ((Parallel.splitArrIntoChunks n ncpu).getD t [])
      (fun done i x s hi h => by
        refine (hhelper _ _ i (Parallel.mem_chunk_lt _ _ hpos _ _ hi) hi x s h).mono ?_
        intro _ s h a b hk
        apply h
        obtain ⟨i', hi', hk⟩ := hk
        rcases List.mem_append.1 hi' with hi' | hi'
        · exact Or.inl ⟨i', hi', hk⟩
        · obtain rfl : i' = i := by simpa using hi'
          exact Or.inr hk)
      [] () (fun _ _ => 0) (by intro a b hk; simp at hk)
    refine hloop.mono ?_
    intro _ s h i hi a b hk
    exact (h a b ⟨i, by simpa using hi, hk⟩).2

/-! ### mesh -/

theorem good_meshHelper {T C K} {Kn : ℕ} {entry : ℕ → ℕ → Except Err ℝ}
    (he : ∀ a < Kn, ∀ b < Kn, EntryOk E entry T a b) (i : ℕ) (hi : i < Kn) (hC : C i) (x : Unit) (s : Shared)
    (h : Inv (fun _ b => b) T C K s) :
    Good E (Rely (fun _ b => b) C) (Guar (fun _ b => b) C) (meshHelper Kn entry i)
      (fun _ s => Inv (fun _ b => b) T C (fun a b => K a b ∨ (b = i ∧ i ≤ a ∧ a < Kn)) s) x s := by
  unfold meshHelper
  refine good_write i i hC (he i hi i hi) h ?_
  intro s h
  rw [← List.flatMap_singleton' (l := List.map _ _), List.flatMap_map]
  have hloop := Good.flatMap (E := E) (R := Rely (fun _ b => b) C) (G := Guar (fun _ b => b) C) (fun a p q _ => rfl)
    (fun j => [write j i (entry j i)])
    (fun done _ s => Inv (fun _ b => b) T C (fun a b => (K a b ∨ (a = i ∧ b = i)) ∨ (b = i ∧ a ∈ done)) s)
    (fun done x s s' h hr => h.stable hr) ((List.range Kn).drop (i + 1))
    (fun done j x s hj h => by
      have hj' : j < Kn := List.mem_range.1 (List.mem_of_mem_drop hj)
      refine good_write j i hC (he j hj' i hi) h ?_
      intro s h s' hr a b hk
      apply h.stable hr
      rcases hk with hk | ⟨rfl, hk⟩
      · exact Or.inl (Or.inl hk)
      · rcases List.mem_append.1 hk with hk | hk
        · exact Or.inl (Or.inr ⟨rfl, hk⟩)
        · exact Or.inr ⟨by simpa using hk, rfl⟩)
    [] x s (by
      intro a b hk
      exact h a b (hk.resolve_right (by simp)))
  refine hloop.mono ?_
  intro _ s h a b hk
  apply h
  rcases hk with hk | ⟨rfl, h1, h2⟩
  · exact Or.inl (Or.inl hk)
  · rcases h1.eq_or_lt with h1 | h1
    · exact Or.inl (Or.inr ⟨h1.symm, rfl⟩)
    · refine Or.inr ⟨rfl, ?_⟩
      rw [List.nil_append, List.mem_drop_iff_getElem]
      exact ⟨a - (b + 1), by simp; omega, by simp; omega⟩

/-! ### polar cap -/

theorem good_polarHelper {T C K} {n : ℕ} {entry : ℕ → ℕ → Except Err ℝ} (hT : ∀ a b, T a b = T b a)
    (he : ∀ a b, a ≤ b → b < n → EntryOk E entry T a b) (i : ℕ) (hi : i < n) (hC : C i) (x : Unit) (s : Shared)
    (h : Inv (fun a b => min a b) T C K s) :
    Good E (Rely (fun a b => min a b) C) (Guar (fun a b => min a b) C) (polarHelper n entry i)
      (fun _ s => Inv (fun a b => min a b) T C
        (fun a b => K a b ∨ ((a = i ∧ i ≤ b ∧ b < n) ∨ (b = i ∧ i ≤ a ∧ a < n))) s) x s := by
  unfold polarHelper
  have hloop := Good.flatMap (E := E) (R := Rely (fun a b => min a b) C) (G := Guar (fun a b => min a b) C)
    (fun a p q _ => rfl) (fun j => [write i j (entry i j), copy j i i j])
    (fun done _ s => Inv (fun a b => min a b) T C (fun a b => K a b ∨ ((a = i ∧ b ∈ done) ∨ (b = i ∧ a ∈ done))) s)
    (fun done x s s' h hr => h.stable hr) ((List.range n).drop i)
    (fun done j x s hj h => by
      have hj' : j < n := List.mem_range.1 (List.mem_of_mem_drop hj)
      have hij : i ≤ j := by
        obtain ⟨k, hk, rfl⟩ := List.mem_drop_iff_getElem.1 hj
        simp
      refine good_write i j (by simpa [min_eq_left hij] using hC) (he i j hij hj') h ?_
      intro s h
      refine good_set j i (by simpa [min_eq_right hij] using hC) _ (fun s => s i j) (Or.inl fun s => rfl) h ?_ ?_
      · intro _ s h
        rw [(h i j (Or.inr ⟨rfl, rfl⟩)).2, hT]
      intro s h s' hr a b hk
      apply h.stable hr
      rcases hk with hk | ⟨rfl, hk⟩ | ⟨rfl, hk⟩
      · exact Or.inl (Or.inl (Or.inl hk))
      · rcases List.mem_append.1 hk with hk | hk
        · exact Or.inl (Or.inl (Or.inr (Or.inl ⟨rfl, hk⟩)))
        · exact Or.inl (Or.inr ⟨rfl, by simpa using hk⟩)
      · rcases List.mem_append.1 hk with hk | hk
        · exact Or.inl (Or.inl (Or.inr (Or.inr ⟨rfl, hk⟩)))
        · exact Or.inr ⟨by simpa using hk, rfl⟩)
    [] x s (by intro a b hk; exact h a b (hk.resolve_right (by simp)))
  refine hloop.mono ?_
  intro _ s h a b hk
  apply h
  have hmem : ∀ c, i ≤ c → c < n → c ∈ (List.range n).drop i := by
    intro c h1 h2
    rw [List.mem_drop_iff_getElem]
    exact ⟨c - i, by simp; omega, by simp; omega⟩
  rcases hk with hk | ⟨rfl, h1, h2⟩ | ⟨rfl, h1, h2⟩
  · exact Or.inl hk
  · exact Or.inr (Or.inl ⟨rfl, by simpa using hmem b h1 h2⟩)
  · exact Or.inr (Or.inr ⟨rfl, by simpa using hmem a h1 h2⟩)

/-! ### the polar-cap entry never raises -/

/-- value of the symbol: the closed form when admissible, zero otherwise. -/
noncomputable def w3j (l1 l2 l3 m1 m2 m3 : ℤ) : ℝ := by
  classical exact if Wigner.Admissible l1 l2 l3 m1 m2 m3 then Wigner.value l1 l2 l3 m1 m2 m3 else 0

theorem wigner3j_eq (l1 l2 l3 m1 m2 m3 : ℤ) : Wigner.wigner3j l1 l2 l3 m1 m2 m3 = .ok (w3j l1 l2 l3 m1 m2 m3) := by
  unfold w3j
  split
  · rename_i h; exact Wigner.wigner3j_value h
  · rename_i h; exact Wigner.wigner3j_zero h

/-- Legendre value before and after: `P_{n-1}`, with `P_{-1} = 1`. -/
noncomputable def plPrev (Pl : ℕ → ℝ) (n : ℤ) : ℝ := if n ≠ 0 then Pl (n - 1).toNat else 1

theorem dmTerm_ok (L : ℕ) (Pl : ℕ → ℝ) (m el p : ℕ) (hel : el < L) (hp : p < L) (n : ℤ) (h0 : 0 ≤ n)
    (h1 : n ≤ el + p) : dmTerm L Pl m el p n =
      .ok (w3j el n p 0 0 0 * w3j el n p m 0 (-m) * (plPrev Pl n - Pl (n + 1).toNat)) := by
  unfold dmTerm
  rw [wigner3j_eq, wigner3j_eq]
  have hb : plAt L Pl (n + 1) = .ok (Pl (n + 1).toNat) := by
    unfold plAt; rw [if_pos (by omega)]
  have ha : (if n ≠ 0 then plAt L Pl (n - 1) else .ok 1) = (.ok (plPrev Pl n) : Except Err ℝ) := by
    unfold plPrev
    split
    · unfold plAt; rw [if_pos (by omega)]
    · rfl
  rw [ha, hb]
  rfl

theorem dmSum_ok (L : ℕ) (Pl : ℕ → ℝ) (m el p : ℕ) (hel : el < L) (hp : p < L) : ∀ ns : List ℤ,
    (∀ n ∈ ns, 0 ≤ n ∧ n ≤ el + p) → dmSum L Pl m el p ns =
      .ok ((ns.map fun n => w3j el n p 0 0 0 * w3j el n p m 0 (-m) * (plPrev Pl n - Pl (n + 1).toNat)).sum)
  | [], _ => by simp [dmSum]
  | n :: ns, h => by
    simp only [dmSum, dmTerm_ok L Pl m el p hel hp n (h n (by simp)).1 (h n (by simp)).2,
      dmSum_ok L Pl m el p hel hp ns (fun k hk => h k (by simp [hk]))]
    simp [bind, Except.bind, pure, Except.pure]

/-- the sum over `n`, as a real number. -/
noncomputable def dmC (Pl : ℕ → ℝ) (m el p : ℕ) : ℝ :=
  ∑ n ∈ Finset.Icc |(el : ℤ) - p| (el + p), w3j el n p 0 0 0 * w3j el n p m 0 (-m) * (plPrev Pl n - Pl (n + 1).toNat)

theorem dmEntry_ok (L : ℕ) (gap : Bool) (Pl : ℕ → ℝ) (m i j : ℕ) (hi : i < L - m) (hj : j < L - m) :
    dmEntry L gap Pl m i j = .ok ((polarGapModification gap (m + i) (m + j) : ℝ) *
      Real.sqrt ((2 * ((m + i : ℕ) : ℝ) + 1) * (2 * ((m + j : ℕ) : ℝ) + 1)) * dmC Pl m (m + i) (m + j)) := by
  unfold dmEntry
  simp only
  rw [dmSum_ok L Pl m _ _ (by omega) (by omega)]
  · simp [bind, Except.bind, pure, Except.pure, Wigner.sum_intRange, dmC]
  · intro n hn
    rw [Wigner.mem_intRange] at hn
    have := abs_nonneg (((m + i : ℕ) : ℤ) - ((m + j : ℕ) : ℤ))
    omega

/-! ### symmetry of the polar-cap formula -/

theorem w3j_swap12 (l1 l2 l3 m1 m2 m3 : ℤ) :
    w3j l2 l1 l3 m2 m1 m3 = (-1) ^ (l1 + l2 + l3) * w3j l1 l2 l3 m1 m2 m3 := by
  unfold w3j
  by_cases h : Wigner.Admissible l1 l2 l3 m1 m2 m3
  · have h' : Wigner.Admissible l2 l1 l3 m2 m1 m3 := Wigner.admissible_of_linear (by have := h.linear; omega)
    rw [if_pos h, if_pos h', Wigner.value_swap12]
  · have h' : ¬ Wigner.Admissible l2 l1 l3 m2 m1 m3 := fun h' =>
      h (Wigner.admissible_of_linear (by have := h'.linear; omega))
    rw [if_neg h, if_neg h', mul_zero]

theorem w3j_swap23 (l1 l2 l3 m1 m2 m3 : ℤ) :
    w3j l1 l3 l2 m1 m3 m2 = (-1) ^ (l1 + l2 + l3) * w3j l1 l2 l3 m1 m2 m3 := by
  unfold w3j
  by_cases h : Wigner.Admissible l1 l2 l3 m1 m2 m3
  · have h' : Wigner.Admissible l1 l3 l2 m1 m3 m2 := Wigner.admissible_of_linear (by have := h.linear; omega)
    rw [if_pos h, if_pos h', Wigner.value_swap23 h.1]
  · have h' : ¬ Wigner.Admissible l1 l3 l2 m1 m3 m2 := fun h' =>
      h (Wigner.admissible_of_linear (by have := h'.linear; omega))
    rw [if_neg h, if_neg h', mul_zero]

theorem w3j_neg (l1 l2 l3 m1 m2 m3 : ℤ) :
    w3j l1 l2 l3 (-m1) (-m2) (-m3) = (-1) ^ (l1 + l2 + l3) * w3j l1 l2 l3 m1 m2 m3 := by
  unfold w3j
  by_cases h : Wigner.Admissible l1 l2 l3 m1 m2 m3
  · have h' : Wigner.Admissible l1 l2 l3 (-m1) (-m2) (-m3) := Wigner.admissible_of_linear (by have := h.linear; omega)
    rw [if_pos h, if_pos h', Wigner.value_neg]
  · have h' : ¬ Wigner.Admissible l1 l2 l3 (-m1) (-m2) (-m3) := fun h' =>
      h (Wigner.admissible_of_linear (by have := h'.linear; omega))
    rw [if_neg h, if_neg h', mul_zero]

theorem neg_one_zpow_mul_self (a : ℤ) : ((-1 : ℝ)) ^ a * (-1) ^ a = 1 := by
  rw [← zpow_add₀ (by norm_num)]
  exact Even.neg_one_zpow ⟨a, rfl⟩

theorem w3j_swap13 (l1 l2 l3 m1 m2 m3 : ℤ) :
    w3j l3 l2 l1 m3 m2 m1 = (-1) ^ (l1 + l2 + l3) * w3j l1 l2 l3 m1 m2 m3 := by
  rw [w3j_swap12 l2 l3 l1 m2 m3 m1, w3j_swap23 l2 l1 l3 m2 m1 m3, w3j_swap12 l1 l2 l3 m1 m2 m3]
  rw [show l2 + l3 + l1 = l1 + l2 + l3 by ring, show l2 + l1 + l3 = l1 + l2 + l3 by ring]
  rw [← mul_assoc, neg_one_zpow_mul_self, one_mul]

theorem w3j_zero_odd {l1 l2 l3 : ℤ} (h : Odd (l1 + l2 + l3)) : w3j l1 l2 l3 0 0 0 = 0 := by
  have := w3j_neg l1 l2 l3 0 0 0
  simp only [neg_zero, h.neg_one_zpow] at this
  linarith

theorem dmC_symm (Pl : ℕ → ℝ) (m el p : ℕ) : dmC Pl m el p = dmC Pl m p el := by
  unfold dmC
  rw [abs_sub_comm, add_comm (el : ℤ)]
  refine Finset.sum_congr rfl fun n _ => ?_
  have h1 := w3j_swap13 el n p 0 0 0
  have h2 : w3j p n el m 0 (-m) = w3j el n p m 0 (-m) := by
    have a := w3j_swap13 el n p m 0 (-m)
    have b := w3j_neg p n el m 0 (-m)
    simp only [neg_zero, neg_neg] at b
    rw [a, show (p : ℤ) + n + el = el + n + p by ring] at b
    have := congrArg (fun x => (-1 : ℝ) ^ ((el : ℤ) + n + p) * x) b
    simp only [← mul_assoc, neg_one_zpow_mul_self, one_mul] at this
    exact this.symm
  rw [h1, h2]
  rcases Int.even_or_odd ((el : ℤ) + n + p) with h | h
  · rw [h.neg_one_zpow]; ring
  · rw [w3j_zero_odd h]; ring

end Sleplet.RealMat
