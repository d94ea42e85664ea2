import Verif.Model.MeshTransform
import Verif.Model.SlepianTransform
import Verif.Model.Wavelets
import Mathlib.Tactic.Ring
import Mathlib.Tactic.Linarith
import Mathlib.Algebra.BigOperators.Ring.Finset

/-!
Programs run on three inputs side by side.
-/
namespace Sleplet.Superposition

/-- three runs of a program: all end with the same exception, or all return and the results are related by `R`. -/
def Sup {α : Type} (R : α → α → α → Prop) (x y z : Except Err α) : Prop :=
  (∃ e, x = .error e ∧ y = .error e ∧ z = .error e) ∨ ∃ u v w, x = .ok u ∧ y = .ok v ∧ z = .ok w ∧ R u v w

/-- `w` is the combination `a u + b v`, element by element, of lists of one length. -/
def Comb {𝕜 : Type} [Add 𝕜] [Mul 𝕜] (a b : 𝕜) (u v w : List 𝕜) : Prop :=
  u.length = v.length ∧ w = List.zipWith (fun x y => a * x + b * y) u v

variable {α β : Type} {R : α → α → α → Prop} {S : β → β → β → Prop}

theorem Sup.ok {u v w : α} (h : R u v w) : Sup R (.ok u) (.ok v) (.ok w) := .inr ⟨u, v, w, rfl, rfl, rfl, h⟩

theorem Sup.same (x : Except Err α) (h : ∀ u, R u u u) : Sup R x x x := by
  cases x with
  | error e => exact .inl ⟨e, rfl, rfl, rfl⟩
  | ok u => exact .ok (h u)

theorem Sup.bind {x y z : Except Err α} {f g h : α → Except Err β} (hx : Sup R x y z)
    (hf : ∀ u v w, R u v w → Sup S (f u) (g v) (h w)) : Sup S (x >>= f) (y >>= g) (z >>= h) := by
  rcases hx with ⟨e, rfl, rfl, rfl⟩ | ⟨u, v, w, rfl, rfl, rfl, hr⟩
  · exact .inl ⟨e, rfl, rfl, rfl⟩
  · exact hf u v w hr

/-- the same first step in all three runs. -/
theorem Sup.step (x : Except Err α) {f g h : α → Except Err β} (hf : ∀ u, Sup S (f u) (g u) (h u)) :
    Sup S (x >>= f) (x >>= g) (x >>= h) := by
  cases x with
  | error e => exact .inl ⟨e, rfl, rfl, rfl⟩
  | ok u => exact hf u

theorem Sup.foldlM {ι : Type} (l : List ι) {f g h : α → ι → Except Err α}
    (hf : ∀ i ∈ l, ∀ u v w, R u v w → Sup R (f u i) (g v i) (h w i)) {u v w : α} (h0 : R u v w) :
    Sup R (l.foldlM f u) (l.foldlM g v) (l.foldlM h w) := by
  induction l generalizing u v w with
  | nil => exact .ok h0
  | cons i l ih =>
    simp only [List.foldlM_cons]
    exact (hf i List.mem_cons_self u v w h0).bind fun u v w hr => ih (fun j hj => hf j (List.mem_cons_of_mem _ hj)) hr

theorem Sup.mono {R' : α → α → α → Prop} {x y z : Except Err α} (h : Sup R x y z) (hr : ∀ u v w, R u v w → R' u v w) :
    Sup R' x y z := by
  rcases h with h | ⟨u, v, w, h1, h2, h3, h⟩
  · exact .inl h
  · exact .inr ⟨u, v, w, h1, h2, h3, hr _ _ _ h⟩

/-- three lists of one length related element by element. -/
def Each (R : α → α → α → Prop) (p q r : List α) : Prop :=
  ∀ i : ℕ, (p[i]? = none ∧ q[i]? = none ∧ r[i]? = none) ∨
    ∃ x y z, p[i]? = some x ∧ q[i]? = some y ∧ r[i]? = some z ∧ R x y z

theorem Each.nil : Each R [] [] [] := fun i => .inl (by simp)

theorem Each.cons {x y z : α} {p q r : List α} (h : R x y z) (hp : Each R p q r) : Each R (x :: p) (y :: q) (z :: r) := by
  intro i
  cases i with
  | zero => exact .inr ⟨x, y, z, rfl, rfl, rfl, h⟩
  | succ i => simpa using hp i

theorem each_cases {p q r : List α} (h : Each R p q r) : (p = [] ∧ q = [] ∧ r = []) ∨
    ∃ x y z p' q' r', p = x :: p' ∧ q = y :: q' ∧ r = z :: r' ∧ R x y z ∧ Each R p' q' r' := by
  have h0 := h 0
  cases p with
  | nil =>
    cases q with
    | nil =>
      cases r with
      | nil => exact .inl ⟨rfl, rfl, rfl⟩
      | cons z r => simp at h0
    | cons y q => simp at h0
  | cons x p =>
    cases q with
    | nil => simp at h0
    | cons y q =>
      cases r with
      | nil => simp at h0
      | cons z r =>
        right
        refine ⟨x, y, z, p, q, r, rfl, rfl, rfl, ?_, fun i => by simpa using h (i + 1)⟩
        simpa using h0

theorem Each.mapM {p q r : List α} (h : Each R p q r) {f g k : α → Except Err β}
    (hf : ∀ x y z, R x y z → Sup S (f x) (g y) (k z)) : Sup (Each S) (p.mapM f) (q.mapM g) (r.mapM k) := by
  induction p generalizing q r with
  | nil =>
    rcases each_cases h with ⟨-, rfl, rfl⟩ | ⟨_, _, _, _, _, _, h, -⟩
    · exact .ok Each.nil
    · cases h
  | cons x p ih =>
    rcases each_cases h with ⟨h, -, -⟩ | ⟨x', y, z, p', q', r', h1, rfl, rfl, h4, h5⟩
    · cases h
    · cases h1
      simp only [List.mapM_cons]
      exact (hf x y z h4).bind fun u v w hr => (ih h5).bind fun us vs ws hs => .ok (Each.cons hr hs)

theorem Each.same (l : List α) (h : ∀ x, R x x x) : Each R l l l := by
  induction l with
  | nil => exact Each.nil
  | cons x l ih => exact Each.cons (h x) ih

theorem Each.maps {ι : Type} (l : List ι) (f g k : ι → α) (h : ∀ i ∈ l, R (f i) (g i) (k i)) :
    Each R (l.map f) (l.map g) (l.map k) := by
  induction l with
  | nil => exact Each.nil
  | cons i l ih => exact Each.cons (h i List.mem_cons_self) (ih fun j hj => h j (List.mem_cons_of_mem _ hj))

section
variable {𝕜 : Type} [CommRing 𝕜] {a b : 𝕜}

theorem Comb.nil : Comb a b ([] : List 𝕜) [] [] := ⟨rfl, rfl⟩

theorem Comb.cons {x y : 𝕜} {u v w : List 𝕜} (h : Comb a b u v w) : Comb a b (x :: u) (y :: v) ((a * x + b * y) :: w) :=
  ⟨by simp [h.1], by rw [h.2]; rfl⟩

theorem Comb.get {u v w : List 𝕜} (h : Comb a b u v w) (i : ℕ) :
    (u[i]? = none ∧ v[i]? = none ∧ w[i]? = none) ∨
      ∃ x y, u[i]? = some x ∧ v[i]? = some y ∧ w[i]? = some (a * x + b * y) := by
  obtain ⟨hl, rfl⟩ := h
  by_cases hi : i < u.length
  · right
    refine ⟨u[i], v[i]'(hl ▸ hi), List.getElem?_eq_getElem hi, List.getElem?_eq_getElem (hl ▸ hi), ?_⟩
    rw [List.getElem?_zipWith, List.getElem?_eq_getElem hi, List.getElem?_eq_getElem (hl ▸ hi)]
  · left
    have h1 : u[i]? = none := List.getElem?_eq_none (not_lt.1 hi)
    have h2 : v[i]? = none := List.getElem?_eq_none (hl ▸ not_lt.1 hi)
    refine ⟨h1, h2, ?_⟩
    rw [List.getElem?_zipWith, h1]

theorem Comb.item {u v w : List 𝕜} (h : Comb a b u v w) (i : ℕ) :
    Sup (fun x y z => z = a * x + b * y) (NumPy.item u i) (NumPy.item v i) (NumPy.item w i) := by
  unfold NumPy.item
  rcases h.get i with ⟨h1, h2, h3⟩ | ⟨x, y, h1, h2, h3⟩
  · rw [h1, h2, h3]; exact .inl ⟨_, rfl, rfl, rfl⟩
  · rw [h1, h2, h3]; exact .ok rfl

theorem Comb.take {u v w : List 𝕜} (h : Comb a b u v w) (n : ℕ) : Comb a b (u.take n) (v.take n) (w.take n) := by
  obtain ⟨hl, rfl⟩ := h
  exact ⟨by simp [hl], by rw [List.take_zipWith]⟩

theorem Comb.sum {u v w : List 𝕜} (h : Comb a b u v w) : w.sum = a * u.sum + b * v.sum := by
  obtain ⟨hl, rfl⟩ := h
  induction u generalizing v with
  | nil =>
    cases v with
    | nil => simp
    | cons y v => simp at hl
  | cons x u ih =>
    cases v with
    | nil => simp at hl
    | cons y v =>
      simp only [List.zipWith_cons_cons, List.sum_cons]
      rw [ih (by simpa using hl)]
      ring

theorem Comb.set {u v w : List 𝕜} (h : Comb a b u v w) (i : ℕ) {x y z : 𝕜} (hz : z = a * x + b * y) :
    Comb a b (u.set i x) (v.set i y) (w.set i z) := by
  obtain ⟨hl, rfl⟩ := h
  subst hz
  refine ⟨by simp [hl], ?_⟩
  apply List.ext_getElem?
  intro j
  rw [List.getElem?_zipWith]
  simp only [List.getElem?_set, List.length_zipWith, List.getElem?_zipWith]
  by_cases hij : i = j
  · subst hij
    by_cases h1 : i < u.length
    · have h2 : i < v.length := hl ▸ h1
      simp [h1, h2]
    · have h2 : ¬ i < v.length := hl ▸ h1
      simp [h1, h2]
  · simp [hij]

theorem Comb.setItem {u v w : List 𝕜} (h : Comb a b u v w) (i : ℕ) {x y z : 𝕜} (hz : z = a * x + b * y) :
    Sup (Comb a b) (NumPy.setItem u i x) (NumPy.setItem v i y) (NumPy.setItem w i z) := by
  have hw : w.length = u.length := by rw [h.2]; simp [h.1]
  unfold NumPy.setItem
  rw [hw, ← h.1]
  split
  · exact .ok (h.set i hz)
  · exact .inl ⟨_, rfl, rfl, rfl⟩

theorem Comb.replicate (n : ℕ) : Comb a b (List.replicate n (0 : 𝕜)) (List.replicate n 0) (List.replicate n 0) := by
  refine ⟨rfl, ?_⟩
  induction n with
  | zero => rfl
  | succ n ih => simp only [List.replicate_succ, List.zipWith_cons_cons, ← ih]; simp

theorem Comb.append {u v w u' v' w' : List 𝕜} (h : Comb a b u v w) (h' : Comb a b u' v' w') :
    Comb a b (u ++ u') (v ++ v') (w ++ w') := by
  obtain ⟨hl, rfl⟩ := h
  obtain ⟨hl', rfl⟩ := h'
  exact ⟨by simp [hl, hl'], (List.zipWith_append hl).symm⟩

theorem Comb.map {ι : Type} (l : List ι) (f g h : ι → 𝕜) (hf : ∀ i ∈ l, h i = a * f i + b * g i) :
    Comb a b (l.map f) (l.map g) (l.map h) := by
  induction l with
  | nil => exact Comb.nil
  | cons i l ih =>
    simp only [List.map_cons]
    rw [hf i List.mem_cons_self]
    exact (ih fun j hj => hf j (List.mem_cons_of_mem _ hj)).cons

/-- broadcasting against a fixed list with an operation that is linear in its first argument; `T` relates results. -/
theorem Comb.broadcast {u v w : List 𝕜} (h : Comb a b u v w) {γ δ : Type} (op : 𝕜 → γ → δ) (s : List γ) {T : δ → δ → δ → Prop}
    (hop : ∀ x y c, T (op x c) (op y c) (op (a * x + b * y) c)) :
    Sup (fun p q r => ∀ i : ℕ, (p[i]? = none ∧ q[i]? = none ∧ r[i]? = none) ∨
        ∃ x y z, p[i]? = some x ∧ q[i]? = some y ∧ r[i]? = some z ∧ T x y z)
      (NumPy.broadcast op u s) (NumPy.broadcast op v s) (NumPy.broadcast op w s) := by
  have hw : w.length = u.length := by rw [h.2]; simp [h.1]
  have hv : v.length = u.length := h.1.symm
  by_cases hs : u.length = s.length
  · unfold NumPy.broadcast
    rw [if_pos hs, if_pos (hv.trans hs), if_pos (hw.trans hs)]
    refine .ok fun i => ?_
    simp only [List.getElem?_zipWith]
    rcases h.get i with ⟨h1, h2, h3⟩ | ⟨x, y, h1, h2, h3⟩
    · rw [h1, h2, h3]; left; simp
    · rw [h1, h2, h3]
      cases hc : s[i]? with
      | none => left; simp
      | some c => right; exact ⟨_, _, _, rfl, rfl, rfl, hop x y c⟩
  · by_cases hu1 : u.length = 1
    · obtain ⟨x, rfl⟩ := List.length_eq_one_iff.1 hu1
      obtain ⟨y, rfl⟩ := List.length_eq_one_iff.1 (hv.trans hu1)
      have : w = [a * x + b * y] := by rw [h.2]; rfl
      subst this
      have e : ∀ t : 𝕜, NumPy.broadcast op [t] s = .ok (s.map (op t)) := by
        intro t
        unfold NumPy.broadcast
        rw [if_neg (by simpa using hs)]
      rw [e, e, e]
      refine .ok fun i => ?_
      simp only [List.getElem?_map]
      cases hc : s[i]? with
      | none => left; simp
      | some c => right; exact ⟨_, _, _, rfl, rfl, rfl, hop x y c⟩
    · have hb : ∀ t : List 𝕜, t.length = u.length → NumPy.broadcast op t s =
          match s with | [c] => .ok (t.map fun x => op x c) | _ => .error .valueError := by
        intro t ht
        unfold NumPy.broadcast
        rw [if_neg (by rw [ht]; exact hs)]
        rcases t with _ | ⟨p, _ | ⟨q, t⟩⟩
        · rcases s with _ | ⟨c, _ | ⟨d, s⟩⟩ <;> rfl
        · exact absurd ht.symm hu1
        · rcases s with _ | ⟨c, _ | ⟨d, s⟩⟩ <;> rfl
      rw [hb u rfl, hb v hv, hb w hw]
      rcases s with _ | ⟨c, _ | ⟨d, s⟩⟩
      · exact .inl ⟨_, rfl, rfl, rfl⟩
      · refine .ok fun i => ?_
        simp only [List.getElem?_map]
        rcases h.get i with ⟨h1, h2, h3⟩ | ⟨x, y, h1, h2, h3⟩
        · rw [h1, h2, h3]; left; simp
        · rw [h1, h2, h3]
          right; exact ⟨_, _, _, rfl, rfl, rfl, hop x y c⟩
      · exact .inl ⟨_, rfl, rfl, rfl⟩

/-- lists related element by element. -/
theorem comb_of_get {p q r : List 𝕜} (h : ∀ i : ℕ, (p[i]? = none ∧ q[i]? = none ∧ r[i]? = none) ∨
    ∃ x y z, p[i]? = some x ∧ q[i]? = some y ∧ r[i]? = some z ∧ z = a * x + b * y) : Comb a b p q r := by
  induction p generalizing q r with
  | nil =>
    rcases h 0 with ⟨-, h2, h3⟩ | ⟨x, y, z, h1, -⟩
    · cases q with
      | nil =>
        cases r with
        | nil => exact Comb.nil
        | cons c r => simp at h3
      | cons c q => simp at h2
    · simp at h1
  | cons x p ih =>
    rcases h 0 with ⟨h1, -, -⟩ | ⟨x', y', z', h1, h2, h3, h4⟩
    · simp at h1
    · cases q with
      | nil => simp at h2
      | cons y q =>
        cases r with
        | nil => simp at h3
        | cons z r =>
          simp only [List.getElem?_cons_zero, Option.some.injEq] at h1 h2 h3
          subst h1; subst h2; subst h3; subst h4
          exact (ih fun i => by simpa using h (i + 1)).cons

/-- sums of fields related element by element. -/
theorem fields_sum {X : Type} {p q r : List (X → 𝕜)} (h : ∀ i : ℕ, (p[i]? = none ∧ q[i]? = none ∧ r[i]? = none) ∨
    ∃ x y z, p[i]? = some x ∧ q[i]? = some y ∧ r[i]? = some z ∧ z = fun t => a * x t + b * y t) (t : X) :
    (r.map fun f => f t).sum = a * (p.map fun f => f t).sum + b * (q.map fun f => f t).sum := by
  refine (comb_of_get fun i => ?_ : Comb a b (p.map fun f => f t) (q.map fun f => f t) (r.map fun f => f t)).sum
  simp only [List.getElem?_map]
  rcases h i with ⟨h1, h2, h3⟩ | ⟨x, y, z, h1, h2, h3, rfl⟩
  · left; rw [h1, h2, h3]; simp
  · right; rw [h1, h2, h3]; exact ⟨_, _, _, rfl, rfl, rfl, rfl⟩

end

end Sleplet.Superposition
