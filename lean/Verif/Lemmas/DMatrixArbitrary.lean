import Mathlib.Tactic.FieldSimp
import Verif.Lemmas.RelyGuarantee
import Verif.Lemmas.HarmonicIndex
import Verif.Lemmas.Parallel
import Verif.Model.DMatrixArbitrary
import Verif.Spec.Concentration

set_option linter.unusedSectionVars false

namespace Sleplet.Arb

open Spec

variable {Pix : Type} [Fintype Pix] {E : Prop}

/-- target value of the entry `(j, i)`. -/
noncomputable def target (P : Params Pix) (F : ℕ → Field Pix) (j i : ℕ) : ℂ :=
  regionInner P.weight P.mask (F j) (F i)

/-- the inverse transform of harmonic `x` gives `F x`, or raises and raising is permitted. -/
def FieldOk (E : Prop) (P : Params Pix) (F : ℕ → Field Pix) (x : ℕ) : Prop :=
  P.fieldOf x = .ok (F x) ∨ (E ∧ ∃ e, P.fieldOf x = .error e)

def FieldsOk (F : ℕ → Field Pix) (s : Shared Pix) : Prop := ∀ x f, s.fields x = some f → f = F x

def Rely (F : ℕ → Field Pix) (C : ℕ → Prop) (s s' : Shared Pix) : Prop :=
  (FieldsOk F s → FieldsOk F s') ∧ (∀ x, (s.fields x).isSome → (s'.fields x).isSome) ∧
  ∀ a b, C b → s'.dr a b = s.dr a b ∧ s'.di a b = s.di a b

def Guar (F : ℕ → Field Pix) (C : ℕ → Prop) (s s' : Shared Pix) : Prop :=
  (FieldsOk F s → FieldsOk F s') ∧ (∀ x, (s.fields x).isSome → (s'.fields x).isSome) ∧
  ∀ a b, ¬ C b → s'.dr a b = s.dr a b ∧ s'.di a b = s.di a b

theorem Rely.refl (F : ℕ → Field Pix) (C) (s) : Rely F C s s := ⟨id, fun _ h => h, fun _ _ _ => ⟨rfl, rfl⟩⟩

theorem Rely.trans (F : ℕ → Field Pix) (C) (a b c) (h1 : Rely F C a b) (h2 : Rely F C b c) : Rely F C a c :=
  ⟨fun h => h2.1 (h1.1 h), fun x h => h2.2.1 x (h1.2.1 x h),
   fun x y h => ⟨(h2.2.2 x y h).1.trans (h1.2.2 x y h).1, (h2.2.2 x y h).2.trans (h1.2.2 x y h).2⟩⟩

theorem Guar.refl (F : ℕ → Field Pix) (C) (s) : Guar F C s s := ⟨id, fun _ h => h, fun _ _ _ => ⟨rfl, rfl⟩⟩

theorem Guar.rely {F : ℕ → Field Pix} {C C' : ℕ → Prop} (hd : ∀ b, C b → ¬ C' b) {s s'}
    (h : Guar F C' s s') : Rely F C s s' :=
  ⟨h.1, h.2.1, fun a b hb => h.2.2 a b (hd b hb)⟩

/-- the set `KR` of real cells and `KI` of imaginary cells known to be correct, plus a correct dictionary. -/
structure Inv (P : Params Pix) (F : ℕ → Field Pix) (C : ℕ → Prop) (KR KI : ℕ → ℕ → Prop) (s : Shared Pix) : Prop where
  ok : FieldsOk F s
  re : ∀ a b, KR a b → C b ∧ s.dr a b = (target P F a b).re
  im : ∀ a b, KI a b → C b ∧ s.di a b = (target P F a b).im

theorem Inv.stable {P : Params Pix} {F C KR KI} {s s'} (h : Inv P F C KR KI s) (hr : Rely F C s s') :
    Inv P F C KR KI s' :=
  ⟨hr.1 h.ok, fun a b hk => ⟨(h.re a b hk).1, ((hr.2.2 a b (h.re a b hk).1).1).trans (h.re a b hk).2⟩,
   fun a b hk => ⟨(h.im a b hk).1, ((hr.2.2 a b (h.im a b hk).1).2).trans (h.im a b hk).2⟩⟩

theorem good_store {P : Params Pix} {F : ℕ → Field Pix} {C : ℕ → Prop} {KR KI : ℕ → ℕ → Prop} (x : ℕ)
    (D : Shared Pix → Prop) (hD : ∀ s s', D s → Rely F C s s' → D s')
    (hD' : ∀ s f, D s → D { s with fields := Function.update s.fields x (some f) })
    (hF : FieldOk E P F x) {c : List (A Pix)} {Q : Local Pix → Shared Pix → Prop}
    {l : Local Pix} {s : Shared Pix} (h : Inv P F C KR KI s) (hDs : D s)
    (hc : ∀ l s, Inv P F C KR KI s → D s → (s.fields x).isSome → Good E (Rely F C) (Guar F C) c Q l s) :
    Good E (Rely F C) (Guar F C) (checkField x :: storeField P x :: c) Q l s := by
  refine Good.cons (fun _ s => Inv P F C KR KI s ∧ D s) ⟨h, hDs⟩ (fun _ s s' h hr => ⟨h.1.stable hr, hD _ _ h.2 hr⟩) ?_
  intro s hM
  refine Or.inr ⟨s, _, rfl, Guar.refl _ _ _, ?_⟩
  refine Good.cons (fun l s => Inv P F C KR KI s ∧ D s ∧ (l.missing = false → (s.fields x).isSome))
    ⟨hM.1, hM.2, ?_⟩ ?_ ?_
  · simp [Option.isSome_iff_ne_none]
  · intro l s s' h hr
    exact ⟨h.1.stable hr, hD _ _ h.2.1 hr, fun hm => hr.2.1 x (h.2.2 hm)⟩
  · rintro s ⟨hI, hDs, hm⟩
    unfold storeField
    simp only at hm ⊢
    cases hmm : (Option.isNone _ : Bool) with
    | false =>
      refine Or.inr ⟨s, _, rfl, Guar.refl _ _ _, hc _ _ hI hDs (hm hmm)⟩
    | true =>
      rcases hF with hF | ⟨hE, e, hF⟩
      swap
      · exact Or.inl ⟨hE, e, by simp [hF]⟩
      rw [hF]
      have hok : FieldsOk F { s with fields := Function.update s.fields x (some (F x)) } := by
        intro y f hy
        by_cases hxy : y = x
        · subst hxy; simpa using hy.symm
        · simp only [Function.update_of_ne hxy] at hy
          exact hI.ok y f hy
      refine Or.inr ⟨_, _, rfl, ⟨fun _ => hok, ?_, fun _ _ _ => ⟨rfl, rfl⟩⟩, hc _ _ ?_ (hD' _ _ hDs) ?_⟩
      · intro y hy
        by_cases hxy : y = x
        · subst hxy; simp
        · simpa [Function.update_of_ne hxy] using hy
      · exact ⟨hok, hI.re, hI.im⟩
      · simp

theorem good_integral {P : Params Pix} {F : ℕ → Field Pix} {C : ℕ → Prop} {KR KI : ℕ → ℕ → Prop} (j i : ℕ)
    (hj : FieldOk E P F j) (hi : FieldOk E P F i) {c : List (A Pix)}
    {Q : Local Pix → Shared Pix → Prop} {l : Local Pix} {s : Shared Pix} (h : Inv P F C KR KI s)
    (hc : ∀ l s, Inv P F C KR KI s → l.integral = target P F j i → Good E (Rely F C) (Guar F C) c Q l s) :
    Good E (Rely F C) (Guar F C) (integralActs P j i ++ c) Q l s := by
  unfold integralActs
  simp only [List.cons_append, List.nil_append]
  refine good_store j (fun _ => True) (fun _ _ _ _ => trivial) (fun _ _ _ => trivial) hj h trivial ?_
  intro l s h _ hsj
  refine good_store i (fun s => (s.fields j).isSome) (fun s s' h hr => hr.2.1 j h) ?_ hi h hsj ?_
  · intro s f hs
    by_cases hij : j = i
    · subst hij; simp
    · simpa [Function.update_of_ne hij] using hs
  intro l s h hsj hsi
  refine Good.cons (fun _ s => Inv P F C KR KI s ∧ (s.fields j).isSome ∧ (s.fields i).isSome) ⟨h, hsj, hsi⟩
    (fun _ s s' h hr => ⟨h.1.stable hr, hr.2.1 j h.2.1, hr.2.1 i h.2.2⟩) ?_
  rintro s ⟨h, hsj, hsi⟩
  obtain ⟨f, hf⟩ := Option.isSome_iff_exists.1 hsj
  have hfF := h.ok j f hf
  refine Or.inr ⟨s, { l with fa := F j }, by simp [readA, hf, hfF], Guar.refl _ _ _, ?_⟩
  refine Good.cons (fun _ s => Inv P F C KR KI s ∧ (s.fields i).isSome) ⟨h, hsi⟩
    (fun _ s s' h hr => ⟨h.1.stable hr, hr.2.1 i h.2⟩) ?_
  rintro s ⟨h, hsi⟩
  obtain ⟨g, hg⟩ := Option.isSome_iff_exists.1 hsi
  have hgF := h.ok i g hg
  refine Or.inr ⟨s, { l with fa := F j, fb := F i }, by simp [readB, hg, hgF], Guar.refl _ _ _, ?_⟩
  refine Good.cons (fun _ s => Inv P F C KR KI s) h (fun _ s s' h hr => h.stable hr) ?_
  intro s h
  refine Or.inr ⟨s, _, rfl, Guar.refl _ _ _, hc _ _ h ?_⟩
  simp [integrateRegion, target, regionInner]

/-- writing a correct real part. -/
theorem good_writeR {P : Params Pix} {F : ℕ → Field Pix} {C : ℕ → Prop} {KR KI : ℕ → ℕ → Prop} (a b : ℕ) (hb : C b)
    (act : A Pix) (val : Local Pix → Shared Pix → ℝ)
    (hact : ∀ s l, act s l = .ok ({ s with dr := setEntry s.dr a b (val l s) }, l))
    {c : List (A Pix)} {Q : Local Pix → Shared Pix → Prop} {l : Local Pix} {s : Shared Pix}
    (h : Inv P F C KR KI s)
    (hval : ∀ s, Inv P F C KR KI s → val l s = (target P F a b).re)
    (hc : ∀ s, Inv P F C (fun x y => KR x y ∨ (x = a ∧ y = b)) KI s → Good E (Rely F C) (Guar F C) c Q l s) :
    Good E (Rely F C) (Guar F C) (act :: c) Q l s := by
  refine Good.cons (fun _ s => Inv P F C KR KI s) h (fun _ s s' h hr => h.stable hr) ?_
  intro s h
  refine Or.inr ⟨_, _, hact s l, ⟨fun h => h, fun _ h => h, ?_⟩, hc _ ⟨h.ok, ?_, h.im⟩⟩
  · intro x y hy
    refine ⟨?_, rfl⟩
    have : y ≠ b := fun e => hy (e ▸ hb)
    simp [setEntry, this]
  · intro x y hk
    by_cases hxy : x = a ∧ y = b
    · obtain ⟨rfl, rfl⟩ := hxy
      exact ⟨hb, by simp [setEntry, hval s h]⟩
    · have hk' := hk.resolve_right hxy
      refine ⟨(h.re x y hk').1, ?_⟩
      simp only [setEntry, hxy, if_false]
      exact (h.re x y hk').2

/-- writing a correct imaginary part. -/
theorem good_writeI {P : Params Pix} {F : ℕ → Field Pix} {C : ℕ → Prop} {KR KI : ℕ → ℕ → Prop} (a b : ℕ) (hb : C b)
    (act : A Pix) (val : Local Pix → Shared Pix → ℝ)
    (hact : ∀ s l, act s l = .ok ({ s with di := setEntry s.di a b (val l s) }, l))
    {c : List (A Pix)} {Q : Local Pix → Shared Pix → Prop} {l : Local Pix} {s : Shared Pix}
    (h : Inv P F C KR KI s)
    (hval : ∀ s, Inv P F C KR KI s → val l s = (target P F a b).im)
    (hc : ∀ s, Inv P F C KR (fun x y => KI x y ∨ (x = a ∧ y = b)) s → Good E (Rely F C) (Guar F C) c Q l s) :
    Good E (Rely F C) (Guar F C) (act :: c) Q l s := by
  refine Good.cons (fun _ s => Inv P F C KR KI s) h (fun _ s s' h hr => h.stable hr) ?_
  intro s h
  refine Or.inr ⟨_, _, hact s l, ⟨fun h => h, fun _ h => h, ?_⟩, hc _ ⟨h.ok, h.re, ?_⟩⟩
  · intro x y hy
    refine ⟨rfl, ?_⟩
    have : y ≠ b := fun e => hy (e ▸ hb)
    simp [setEntry, this]
  · intro x y hk
    by_cases hxy : x = a ∧ y = b
    · obtain ⟨rfl, rfl⟩ := hxy
      exact ⟨hb, by simp [setEntry, hval s h]⟩
    · have hk' := hk.resolve_right hxy
      refine ⟨(h.im x y hk').1, ?_⟩
      simp only [setEntry, hxy, if_false]
      exact (h.im x y hk').2

/-- the conjugate relation used for `m_i = 0`. -/
theorem target_mirror {P : Params Pix} {F : ℕ → Field Pix} (hsym : ConjSymmetric P.L F) {i l : ℕ} {m : ℤ}
    (hi : i < P.L ^ 2) (hm0 : (ind2elm i).2 = 0) (hl : l < P.L) (hm : |m| ≤ l) :
    target P F (elm2ind l (-m)) i = (-1 : ℂ) ^ m * (starRingEnd ℂ) (target P F (elm2ind l m) i) := by
  have hreal : ∀ p, (starRingEnd ℂ) (F i p) = F i p := by
    intro p
    have h := hsym (ind2elm i).1 (ind2elm i).2 (ind2elm_fst_lt hi) (ind2elm_abs_le i) p
    rw [hm0] at h
    have e := elm2ind_ind2elm i
    rw [hm0] at e
    simp only [neg_zero, e, zpow_zero, one_mul] at h
    exact h.symm
  simp only [target, regionInner, map_sum, map_mul, Complex.conj_conj, Complex.conj_ofReal]
  rw [Finset.mul_sum]
  refine Finset.sum_congr rfl fun p _ => ?_
  rw [hsym l m hl hm p, hreal p]
  ring

theorem re_im_mirror (m : ℤ) (z w : ℂ) (h : w = (-1 : ℂ) ^ m * (starRingEnd ℂ) z) :
    w.re = (-1 : ℝ) ^ m * z.re ∧ w.im = (-1 : ℝ) ^ (m + 1) * z.im := by
  have e : ((-1 : ℂ) ^ m) = (((-1 : ℝ) ^ m : ℝ) : ℂ) := by push_cast; rfl
  subst h
  rw [e, Complex.re_ofReal_mul, Complex.im_ofReal_mul]
  refine ⟨by simp, ?_⟩
  rw [zpow_add₀ (by norm_num)]
  simp

/-- cells certainly correct after the body for `j` ran. -/
def rowCells (L i j a b : ℕ) : Prop :=
  b = i ∧
    if (ind2elm i).2 = 0 ∧ (ind2elm j).2 ≠ 0 ∧ (ind2elm j).1 < L then
      (ind2elm j).2 > 0 ∧ (a = j ∨ a = elm2ind (ind2elm j).1 (-(ind2elm j).2))
    else a = j

theorem good_row {P : Params Pix} {F : ℕ → Field Pix} (hF : ∀ x < P.L ^ 2, FieldOk E P F x)
    (hsym : ConjSymmetric P.L F) {C : ℕ → Prop} (K : ℕ → ℕ → Prop) {i j : ℕ} (hi : i < P.L ^ 2) (hj : j < P.L ^ 2)
    (hC : C i) (l : Local Pix) (s : Shared Pix) (h : Inv P F C K K s) :
    Good E (Rely F C) (Guar F C) (rowActs P i j)
      (fun _ s => Inv P F C (fun a b => K a b ∨ rowCells P.L i j a b) (fun a b => K a b ∨ rowCells P.L i j a b) s)
      l s := by
  unfold rowActs
  split
  case isTrue hsp =>
    split
    case isTrue hpos =>
      refine good_integral j i (hF j hj) (hF i hi) h ?_
      intro l s h hint
      refine good_writeR j i hC _ (fun l _ => l.integral.re) (fun _ _ => rfl) h (fun _ _ => by rw [hint]) ?_
      intro s h
      refine good_writeI j i hC _ (fun l _ => l.integral.im) (fun _ _ => rfl) h (fun _ _ => by rw [hint]) ?_
      intro s h
      have hmir := re_im_mirror _ _ _ (target_mirror (P := P) hsym hi hsp.1 hsp.2.2 (ind2elm_abs_le j))
      rw [elm2ind_ind2elm] at hmir
      refine good_writeR _ i hC _ (fun _ s => (-1 : ℝ) ^ (ind2elm j).2 * s.dr j i) (fun _ _ => rfl) h ?_ ?_
      · intro s h
        rw [hmir.1, (h.re j i (Or.inr ⟨rfl, rfl⟩)).2]
      intro s h
      refine good_writeI _ i hC _ (fun _ s => (-1 : ℝ) ^ ((ind2elm j).2 + 1) * s.di j i) (fun _ _ => rfl) h ?_ ?_
      · intro s h
        rw [hmir.2, (h.im j i (Or.inr ⟨rfl, rfl⟩)).2]
      intro s h s' hr
      have h' := h.stable hr
      refine ⟨h'.ok, fun a b hk => h'.re a b ?_, fun a b hk => h'.im a b ?_⟩
      · rcases hk with hk | ⟨rfl, hk⟩
        · exact Or.inl (Or.inl hk)
        · rw [if_pos hsp] at hk
          rcases hk.2 with hk | hk
          · exact Or.inl (Or.inr ⟨hk, rfl⟩)
          · exact Or.inr ⟨hk, rfl⟩
      · rcases hk with hk | ⟨rfl, hk⟩
        · exact Or.inl (Or.inl hk)
        · rw [if_pos hsp] at hk
          rcases hk.2 with hk | hk
          · exact Or.inl (Or.inr ⟨hk, rfl⟩)
          · exact Or.inr ⟨hk, rfl⟩
    case isFalse hneg =>
      intro s' hr
      have h' := h.stable hr
      refine ⟨h'.ok, fun a b hk => h'.re a b (hk.resolve_right ?_), fun a b hk => h'.im a b (hk.resolve_right ?_)⟩
      all_goals
        rintro ⟨_, hk⟩
        rw [if_pos hsp] at hk
        exact hneg hk.1
  case isFalse hsp =>
    refine good_integral j i (hF j hj) (hF i hi) h ?_
    intro l s h hint
    refine good_writeR j i hC _ (fun l _ => l.integral.re) (fun _ _ => rfl) h (fun _ _ => by rw [hint]) ?_
    intro s h
    refine good_writeI j i hC _ (fun l _ => l.integral.im) (fun _ _ => rfl) h (fun _ _ => by rw [hint]) ?_
    intro s h s' hr
    have h' := h.stable hr
    refine ⟨h'.ok, fun a b hk => h'.re a b ?_, fun a b hk => h'.im a b ?_⟩
    all_goals
      rcases hk with hk | ⟨rfl, hk⟩
      · exact Or.inl hk
      · rw [if_neg hsp] at hk
        exact Or.inr ⟨hk, rfl⟩

/-- every lower-triangle cell of column `i` is among the cells written by the loop over `j > i` or the diagonal. -/
theorem coverage {L i a : ℕ} (hia : i ≤ a) (ha : a < L ^ 2) :
    a = i ∨ ∃ j, i < j ∧ j < L ^ 2 ∧ rowCells L i j a i := by
  rcases hia.eq_or_lt with h | h
  · exact Or.inl h.symm
  · right
    by_cases hsp : (ind2elm i).2 = 0 ∧ (ind2elm a).2 ≠ 0 ∧ (ind2elm a).1 < L
    · by_cases hpos : (ind2elm a).2 > 0
      · exact ⟨a, h, ha, rfl, by rw [if_pos hsp]; exact ⟨hpos, Or.inl rfl⟩⟩
      · -- negative order: reached through its mirror image
        have hb := ind2elm_abs_le a
        have hb' : |-(ind2elm a).2| ≤ ((ind2elm a).1 : ℤ) := by rwa [abs_neg]
        have e := ind2elm_elm2ind hb'
        have hne := hsp.2.1
        refine ⟨elm2ind (ind2elm a).1 (-(ind2elm a).2), ?_, ?_, rfl, ?_⟩
        · have h1 := elm2ind_cast hb'
          have h2 := elm2ind_cast hb
          rw [elm2ind_ind2elm] at h2
          zify at h ⊢
          omega
        · exact (elm2ind_lt_sq hb' L).2 hsp.2.2
        · rw [e, if_pos ⟨hsp.1, by simpa using hne, hsp.2.2⟩]
          refine ⟨by simp only; omega, Or.inr ?_⟩
          simp [elm2ind_ind2elm]
    · exact ⟨a, h, ha, rfl, by rw [if_neg hsp]⟩

theorem good_helper {P : Params Pix} {F : ℕ → Field Pix} (hF : ∀ x < P.L ^ 2, FieldOk E P F x)
    (hsym : ConjSymmetric P.L F) {C : ℕ → Prop} (K : ℕ → ℕ → Prop) {i : ℕ} (hi : i < P.L ^ 2)
    (hC : C i) (l : Local Pix) (s : Shared Pix) (h : Inv P F C K K s) :
    Good E (Rely F C) (Guar F C) (matrixHelper P i)
      (fun _ s => Inv P F C (fun a b => K a b ∨ (b = i ∧ i ≤ a ∧ a < P.L ^ 2))
        (fun a b => K a b ∨ (b = i ∧ i ≤ a ∧ a < P.L ^ 2)) s) l s := by
  unfold matrixHelper
  rw [List.append_assoc]
  refine good_integral i i (hF i hi) (hF i hi) h ?_
  intro l s h hint
  rw [List.cons_append, List.cons_append, List.nil_append]
  refine good_writeR i i hC _ (fun l _ => l.integral.re) (fun _ _ => rfl) h (fun _ _ => by rw [hint]) ?_
  intro s h
  refine good_writeI i i hC _ (fun l _ => l.integral.im) (fun _ _ => rfl) h (fun _ _ => by rw [hint]) ?_
  intro s h
  have hloop := Good.flatMap (E := E) (R := Rely F C) (G := Guar F C) (Rely.refl F C) (rowActs P i)
    (fun done _ s => Inv P F C (fun a b => (K a b ∨ (a = i ∧ b = i)) ∨ ∃ j ∈ done, rowCells P.L i j a b)
      (fun a b => (K a b ∨ (a = i ∧ b = i)) ∨ ∃ j ∈ done, rowCells P.L i j a b) s)
    (fun done x s s' h hr => h.stable hr) ((List.range (P.L ^ 2)).drop (i + 1))
    (fun done j x s hj h => by
      have hj' : j < P.L ^ 2 := List.mem_range.1 (List.mem_of_mem_drop hj)
      refine (good_row hF hsym _ hi hj' hC x s h).mono ?_
      intro _ s h
      refine ⟨h.ok, fun a b hk => h.re a b ?_, fun a b hk => h.im a b ?_⟩
      all_goals
        rcases hk with hk | ⟨j', hj', hk⟩
        · exact Or.inl (Or.inl hk)
        · rcases List.mem_append.1 hj' with hj' | hj'
          · exact Or.inl (Or.inr ⟨j', hj', hk⟩)
          · obtain rfl : j' = j := by simpa using hj'
            exact Or.inr hk)
    [] l s (by
      refine ⟨h.ok, fun a b hk => h.re a b ?_, fun a b hk => h.im a b ?_⟩
      all_goals
        rcases hk with hk | ⟨j', hj', _⟩
        · exact hk
        · simp at hj')
  refine hloop.mono ?_
  intro _ s h
  simp only [List.nil_append] at h
  refine ⟨h.ok, fun a b hk => h.re a b ?_, fun a b hk => h.im a b ?_⟩
  all_goals
    rcases hk with hk | ⟨rfl, hia, ha⟩
    · exact Or.inl (Or.inl hk)
    · rcases coverage hia ha with rfl | ⟨j, hij, hj, hcell⟩
      · exact Or.inl (Or.inr ⟨rfl, rfl⟩)
      · refine Or.inr ⟨j, ?_, hcell⟩
        rw [List.mem_drop_iff_getElem]
        exact ⟨j - (b + 1), by simp; omega, by simp; omega⟩

theorem good_chunk {P : Params Pix} {F : ℕ → Field Pix} (hF : ∀ x < P.L ^ 2, FieldOk E P F x)
    (hsym : ConjSymmetric P.L F) (chunk : List ℕ) (hch : ∀ i ∈ chunk, i < P.L ^ 2) (l : Local Pix) :
    Good E (Rely F (· ∈ chunk)) (Guar F (· ∈ chunk)) (chunkProgram P chunk)
      (fun _ s => ∀ b ∈ chunk, ∀ a, b ≤ a → a < P.L ^ 2 →
        s.dr a b = (target P F a b).re ∧ s.di a b = (target P F a b).im) l initShared := by
  have hloop := Good.flatMap (E := E) (R := Rely F (· ∈ chunk)) (G := Guar F (· ∈ chunk)) (Rely.refl F _) (matrixHelper P)
    (fun done _ s => Inv P F (· ∈ chunk) (fun a b => b ∈ done ∧ b ≤ a ∧ a < P.L ^ 2)
      (fun a b => b ∈ done ∧ b ≤ a ∧ a < P.L ^ 2) s)
    (fun done x s s' h hr => h.stable hr) chunk
    (fun done i x s hi h => by
      refine (good_helper hF hsym _ (hch i hi) hi x s h).mono ?_
      intro _ s h
      refine ⟨h.ok, fun a b hk => h.re a b ?_, fun a b hk => h.im a b ?_⟩
      all_goals
        obtain ⟨hb, h1, h2⟩ := hk
        rcases List.mem_append.1 hb with hb | hb
        · exact Or.inl ⟨hb, h1, h2⟩
        · obtain rfl : b = i := by simpa using hb
          exact Or.inr ⟨rfl, h1, h2⟩)
    [] l initShared ⟨by intro x f h; simp [initShared] at h, by simp, by simp⟩
  refine hloop.mono ?_
  intro _ s h b hb a h1 h2
  simp only [List.nil_append] at h
  exact ⟨(h.re a b ⟨hb, h1, h2⟩).2, (h.im a b ⟨hb, h1, h2⟩).2⟩

/-- all tasks together. -/
theorem pool_post {P : Params Pix} {F : ℕ → Field Pix} (hF : ∀ x < P.L ^ 2, FieldOk E P F x)
    (hsym : ConjSymmetric P.L F) {ncpu : ℕ} (hpos : 1 ≤ ncpu) {s' : Shared Pix}
    {ts' : Fin ncpu → Task (Shared Pix) (Local Pix)}
    (h : PoolRun (programs P ncpu) initLocal initShared s' ts') (t : Fin ncpu) :
    ((ts' t).failed = none → ∀ b ∈ (Parallel.splitArrIntoChunks (P.L ^ 2) ncpu).getD t [], ∀ a, b ≤ a → a < P.L ^ 2 →
        s'.dr a b = (target P F a b).re ∧ s'.di a b = (target P F a b).im) ∧
    (¬ E → (ts' t).failed = none) := by
  have hch : ∀ t : Fin ncpu, ∀ i ∈ (Parallel.splitArrIntoChunks (P.L ^ 2) ncpu).getD t [], i < P.L ^ 2 :=
    fun t i hi => Parallel.mem_chunk_lt _ _ hpos _ _ hi
  refine PoolRun.post (fun t => Rely F (· ∈ (Parallel.splitArrIntoChunks (P.L ^ 2) ncpu).getD t []))
    (fun t => Guar F (· ∈ (Parallel.splitArrIntoChunks (P.L ^ 2) ncpu).getD t [])) _
    (fun t => Rely.refl F _) (fun t => Rely.trans F _) ?_ (fun t => good_chunk hF hsym _ (hch t) _) h t
  intro t u htu a b hG
  refine Guar.rely ?_ hG
  intro x hx hx'
  exact htu (Fin.ext (Parallel.chunks_disjoint _ _ hpos _ _ _ hx' hx))

end Sleplet.Arb
