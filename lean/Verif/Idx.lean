import Mathlib.Algebra.BigOperators.Ring.Finset
import Mathlib.Algebra.BigOperators.Group.Finset.Sigma
import Mathlib.Algebra.BigOperators.Group.List.Basic
import Mathlib.Algebra.Order.BigOperators.Group.List
import Mathlib.Tactic.Ring
import Mathlib.Tactic.Linarith

/-!
# Multi-indices, row-major numbering and sums over all indices of a shape

Auxiliary mathematics used by the model: nothing here is specific to tt-sketch.
-/

namespace TTS

open Finset

/-- `InR s i`: the multi-index `i` is in range for the shape `s` (same length, every component
smaller than the mode size). -/
def InR : List ℕ → List ℕ → Prop
  | [], [] => True
  | n :: s, i :: is => i < n ∧ InR s is
  | _, _ => False

instance InR.dec : (s i : List ℕ) → Decidable (InR s i)
  | [], [] => isTrue trivial
  | n :: s, i :: is =>
    have := InR.dec s is
    inferInstanceAs (Decidable (i < n ∧ InR s is))
  | [], _ :: _ => isFalse (fun h => h)
  | _ :: _, [] => isFalse (fun h => h)

@[simp] theorem inR_nil_nil : InR [] [] = True := rfl
@[simp] theorem inR_cons_cons (n i : ℕ) (s is : List ℕ) :
    InR (n :: s) (i :: is) = (i < n ∧ InR s is) := rfl
@[simp] theorem inR_nil_cons (i : ℕ) (is : List ℕ) : InR [] (i :: is) = False := rfl
@[simp] theorem inR_cons_nil (n : ℕ) (s : List ℕ) : InR (n :: s) [] = False := rfl

theorem InR.length : ∀ {s i : List ℕ}, InR s i → i.length = s.length
  | [], [], _ => rfl
  | _ :: _, _ :: _, h => by simp [InR.length h.2]
  | [], _ :: _, h => h.elim
  | _ :: _, [], h => h.elim

theorem inR_append : ∀ {s t p q : List ℕ}, p.length = s.length →
    (InR (s ++ t) (p ++ q) ↔ InR s p ∧ InR t q)
  | [], _, [], _, _ => by simp
  | _ :: s, t, _ :: p, q, h => by
    simp only [List.cons_append, inR_cons_cons]
    rw [inR_append (by simpa using h)]; tauto
  | [], _, _ :: _, _, h => by simp at h
  | _ :: _, _, [], _, h => by simp at h

theorem InR.append {s t p q : List ℕ} (hp : InR s p) (hq : InR t q) : InR (s ++ t) (p ++ q) :=
  (inR_append hp.length).2 ⟨hp, hq⟩

theorem InR.reverse : ∀ {s i : List ℕ}, InR s i → InR s.reverse i.reverse
  | [], [], _ => trivial
  | n :: s, i :: is, h => by
    simp only [List.reverse_cons]
    exact (InR.reverse h.2).append ⟨h.1, trivial⟩
  | [], _ :: _, h => h.elim
  | _ :: _, [], h => h.elim

theorem inR_reverse {s i : List ℕ} : InR s.reverse i.reverse ↔ InR s i :=
  ⟨fun h => by simpa using h.reverse, InR.reverse⟩

theorem inR_reverse' {s i : List ℕ} : InR s.reverse i ↔ InR s i.reverse := by
  rw [← inR_reverse (s := s) (i := i.reverse)]; simp

theorem InR.take {s i : List ℕ} (h : InR s i) (k : ℕ) : InR (s.take k) (i.take k) := by
  induction k generalizing s i with
  | zero => simp
  | succ k ih =>
    match s, i, h with
    | [], [], _ => simp
    | n :: s, j :: i, h => exact ⟨h.1, ih h.2⟩

theorem InR.drop {s i : List ℕ} (h : InR s i) (k : ℕ) : InR (s.drop k) (i.drop k) := by
  induction k generalizing s i with
  | zero => simpa
  | succ k ih =>
    match s, i, h with
    | [], [], _ => simp
    | n :: s, j :: i, h => exact ih h.2

theorem InR.getElem {s i : List ℕ} (h : InR s i) {k : ℕ} (hk : k < s.length) :
    i[k]'(h.length ▸ hk) < s[k] := by
  induction k generalizing s i with
  | zero => match s, i, h with | n :: s, j :: i, h => exact h.1
  | succ k ih => match s, i, h with | n :: s, j :: i, h => exact ih h.2 (by simpa using hk)

/-- Every position of a shape with an index in range is positive, so its product is. -/
theorem InR.prod_pos : ∀ {s i : List ℕ}, InR s i → 0 < s.prod
  | [], [], _ => by simp
  | n :: s, i :: is, h => by
    simp only [List.prod_cons]
    exact Nat.mul_pos (by have := h.1; omega) (InR.prod_pos h.2)
  | [], _ :: _, h => h.elim
  | _ :: _, [], h => h.elim

/-! ### Row-major numbering -/

/-- Row-major position of a multi-index (numpy `ravel_multi_index`, C order). -/
def ravel : List ℕ → List ℕ → ℕ
  | _ :: s, i :: is => i * s.prod + ravel s is
  | _, _ => 0

/-- Inverse of `ravel` (numpy `unravel_index`, C order). -/
def unravel : List ℕ → ℕ → List ℕ
  | [], _ => []
  | _ :: s, k => k / s.prod :: unravel s (k % s.prod)

@[simp] theorem ravel_nil (i : List ℕ) : ravel [] i = 0 := by cases i <;> rfl
@[simp] theorem ravel_cons (n i : ℕ) (s is : List ℕ) :
    ravel (n :: s) (i :: is) = i * s.prod + ravel s is := rfl
@[simp] theorem unravel_nil (k : ℕ) : unravel [] k = [] := rfl
@[simp] theorem unravel_cons (n k : ℕ) (s : List ℕ) :
    unravel (n :: s) k = k / s.prod :: unravel s (k % s.prod) := rfl

theorem unravel_length (s : List ℕ) (k : ℕ) : (unravel s k).length = s.length := by
  induction s generalizing k with
  | nil => rfl
  | cons n s ih => simp [ih]

theorem ravel_lt : ∀ {s i : List ℕ}, InR s i → ravel s i < s.prod
  | [], [], _ => by simp
  | n :: s, i :: is, h => by
    have h1 := ravel_lt h.2
    have h2 : i + 1 ≤ n := h.1
    calc i * s.prod + ravel s is < i * s.prod + s.prod := by omega
      _ = (i + 1) * s.prod := by ring
      _ ≤ n * s.prod := Nat.mul_le_mul_right _ h2
      _ = _ := by simp
  | [], _ :: _, h => h.elim
  | _ :: _, [], h => h.elim

theorem unravel_inR {s : List ℕ} {k : ℕ} (h : k < s.prod) : InR s (unravel s k) := by
  induction s generalizing k with
  | nil => trivial
  | cons n s ih =>
    simp only [List.prod_cons] at h
    have hs : 0 < s.prod := Nat.pos_of_ne_zero (by rintro h0; simp [h0] at h)
    exact ⟨(Nat.div_lt_iff_lt_mul hs).2 h, ih (Nat.mod_lt _ hs)⟩

theorem unravel_ravel : ∀ {s i : List ℕ}, InR s i → unravel s (ravel s i) = i
  | [], [], _ => rfl
  | n :: s, i :: is, h => by
    have h1 := ravel_lt h.2
    have hs : 0 < s.prod := h.2.prod_pos
    simp only [ravel_cons, unravel_cons]
    have e1 : (i * s.prod + ravel s is) / s.prod = i := by
      rw [mul_comm, Nat.mul_add_div hs, Nat.div_eq_of_lt h1, add_zero]
    have e2 : (i * s.prod + ravel s is) % s.prod = ravel s is := by
      rw [mul_comm, Nat.mul_add_mod, Nat.mod_eq_of_lt h1]
    rw [e1, e2, unravel_ravel h.2]
  | [], _ :: _, h => h.elim
  | _ :: _, [], h => h.elim

theorem ravel_unravel {s : List ℕ} {k : ℕ} (h : k < s.prod) : ravel s (unravel s k) = k := by
  induction s generalizing k with
  | nil => simp at h; simp [h]
  | cons n s ih =>
    simp only [List.prod_cons] at h
    have hs : 0 < s.prod := Nat.pos_of_ne_zero (by rintro h0; simp [h0] at h)
    simp only [unravel_cons, ravel_cons]
    rw [ih (Nat.mod_lt _ hs)]
    exact Nat.div_add_mod' k s.prod

theorem ravel_inj {s i j : List ℕ} (hi : InR s i) (hj : InR s j) (h : ravel s i = ravel s j) :
    i = j := by
  rw [← unravel_ravel hi, ← unravel_ravel hj, h]

theorem ravel_append : ∀ {s t p q : List ℕ}, p.length = s.length →
    ravel (s ++ t) (p ++ q) = ravel s p * t.prod + ravel t q
  | [], _, [], _, _ => by simp
  | _ :: s, t, _ :: p, q, h => by
    simp only [List.cons_append, ravel_cons, List.prod_append]
    rw [ravel_append (by simpa using h)]; ring
  | [], _, _ :: _, _, h => by simp at h
  | _ :: _, _, [], _, h => by simp at h

theorem unravel_append (s t : List ℕ) {k : ℕ} (h : k < s.prod * t.prod) :
    unravel (s ++ t) k = unravel s (k / t.prod) ++ unravel t (k % t.prod) := by
  have ht : 0 < t.prod := Nat.pos_of_ne_zero (by rintro h0; simp [h0] at h)
  have h1 : k / t.prod < s.prod := (Nat.div_lt_iff_lt_mul ht).2 h
  have h2 : k % t.prod < t.prod := Nat.mod_lt _ ht
  have hR : InR (s ++ t) (unravel s (k / t.prod) ++ unravel t (k % t.prod)) :=
    (unravel_inR h1).append (unravel_inR h2)
  rw [← unravel_ravel hR, ravel_append (unravel_length _ _), ravel_unravel h1, ravel_unravel h2,
    Nat.div_add_mod']

/-! ### Sums over all indices of a shape -/

variable {K : Type*}

/-- `sumIdx s f` is the sum of `f i` over all multi-indices `i` in range for `s`. -/
def sumIdx [AddCommMonoid K] : List ℕ → (List ℕ → K) → K
  | [], f => f []
  | n :: s, f => ∑ i ∈ range n, sumIdx s (fun is => f (i :: is))

section sums
variable [AddCommMonoid K]

@[simp] theorem sumIdx_nil (f : List ℕ → K) : sumIdx [] f = f [] := rfl
@[simp] theorem sumIdx_cons (n : ℕ) (s : List ℕ) (f : List ℕ → K) :
    sumIdx (n :: s) f = ∑ i ∈ range n, sumIdx s (fun is => f (i :: is)) := rfl

theorem sumIdx_congr {s : List ℕ} {f g : List ℕ → K} (h : ∀ i, InR s i → f i = g i) :
    sumIdx s f = sumIdx s g := by
  induction s generalizing f g with
  | nil => exact h [] trivial
  | cons n s ih =>
    refine sum_congr rfl fun i hi => ih fun is his => h _ ⟨by simpa using hi, his⟩

theorem sumIdx_zero (s : List ℕ) : sumIdx s (fun _ => (0 : K)) = 0 := by
  induction s with
  | nil => rfl
  | cons n s ih => simp [ih]

theorem sumIdx_eq_zero {s : List ℕ} {f : List ℕ → K} (h : ∀ i, InR s i → f i = 0) :
    sumIdx s f = 0 := by
  rw [sumIdx_congr h, sumIdx_zero]

theorem sumIdx_add (s : List ℕ) (f g : List ℕ → K) :
    sumIdx s (fun i => f i + g i) = sumIdx s f + sumIdx s g := by
  induction s generalizing f g with
  | nil => rfl
  | cons n s ih => simp [ih, sum_add_distrib]

theorem sumIdx_sum {ι : Type*} (s : List ℕ) (t : Finset ι) (f : List ℕ → ι → K) :
    sumIdx s (fun i => ∑ k ∈ t, f i k) = ∑ k ∈ t, sumIdx s (fun i => f i k) := by
  induction s generalizing f with
  | nil => rfl
  | cons n s ih => simp only [sumIdx_cons, ih]; rw [sum_comm]

theorem sumIdx_comm (s t : List ℕ) (f : List ℕ → List ℕ → K) :
    sumIdx s (fun i => sumIdx t (fun j => f i j)) = sumIdx t (fun j => sumIdx s (fun i => f i j)) := by
  induction s generalizing f with
  | nil => rfl
  | cons n s ih => simp only [sumIdx_cons, ih]; rw [sumIdx_sum]

theorem sumIdx_append (s t : List ℕ) (f : List ℕ → K) :
    sumIdx (s ++ t) f = sumIdx s (fun i => sumIdx t (fun j => f (i ++ j))) := by
  induction s generalizing f with
  | nil => rfl
  | cons n s ih => simp [ih]

theorem sumIdx_reverse (s : List ℕ) (f : List ℕ → K) :
    sumIdx s.reverse f = sumIdx s (fun i => f i.reverse) := by
  induction s generalizing f with
  | nil => rfl
  | cons n s ih =>
    simp only [List.reverse_cons, sumIdx_append, sumIdx_cons, sumIdx_nil, ih]
    rw [sumIdx_sum]

theorem sumIdx_ite_eq {s j : List ℕ} (hj : InR s j) (f : List ℕ → K) :
    sumIdx s (fun i => if i = j then f i else 0) = f j := by
  induction s generalizing j f with
  | nil => match j, hj with | [], _ => simp
  | cons n s ih =>
    match j, hj with
    | k :: j, hj =>
      simp only [sumIdx_cons, List.cons.injEq]
      rw [sum_eq_single k]
      · simpa using ih hj.2 (fun is => f (k :: is))
      · intro b _ hb; simp [hb, sumIdx_zero]
      · intro hk; exact absurd (mem_range.2 hj.1) hk

theorem range_mul_sum (m n : ℕ) (f : ℕ → K) :
    ∑ k ∈ range (m * n), f k = ∑ i ∈ range m, ∑ j ∈ range n, f (i * n + j) := by
  induction m with
  | zero => simp
  | succ m ih => rw [Nat.succ_mul, sum_range_add, ih, sum_range_succ]

/-- Summing over row-major positions is summing over multi-indices. -/
theorem sum_unravel (s : List ℕ) (f : List ℕ → K) :
    ∑ k ∈ range s.prod, f (unravel s k) = sumIdx s f := by
  induction s generalizing f with
  | nil => simp [one_nsmul]
  | cons n s ih =>
    simp only [List.prod_cons, sumIdx_cons, unravel_cons]
    rw [range_mul_sum]
    refine sum_congr rfl fun i _ => ?_
    rw [← ih]
    refine sum_congr rfl fun j hj => ?_
    have hj' : j < s.prod := by simpa using hj
    have hs : 0 < s.prod := by omega
    rw [mul_comm, Nat.mul_add_div hs, Nat.mul_add_mod, Nat.div_eq_of_lt hj', Nat.mod_eq_of_lt hj',
      add_zero]

theorem sum_ravel (s : List ℕ) (f : ℕ → K) :
    sumIdx s (fun i => f (ravel s i)) = ∑ k ∈ range s.prod, f k := by
  rw [← sum_unravel]
  exact sum_congr rfl fun k hk => by rw [ravel_unravel (by simpa using hk)]

end sums

theorem mul_sumIdx [NonUnitalNonAssocSemiring K] (s : List ℕ) (c : K) (f : List ℕ → K) :
    c * sumIdx s f = sumIdx s (fun i => c * f i) := by
  induction s generalizing f with
  | nil => rfl
  | cons n s ih => simp [mul_sum, ih]

theorem sumIdx_mul [NonUnitalNonAssocSemiring K] (s : List ℕ) (c : K) (f : List ℕ → K) :
    sumIdx s f * c = sumIdx s (fun i => f i * c) := by
  induction s generalizing f with
  | nil => rfl
  | cons n s ih => simp [sum_mul, ih]

theorem sumIdx_list_sum [AddCommMonoid K] {ι : Type*} (s : List ℕ) (l : List ι)
    (f : List ℕ → ι → K) :
    sumIdx s (fun i => (l.map (f i)).sum) = (l.map (fun k => sumIdx s (fun i => f i k))).sum := by
  induction l with
  | nil => simp [sumIdx_zero]
  | cons a l ih => simp [sumIdx_add, ih]

/-- All multi-indices of a shape in row-major order (numpy `np.indices(shape).reshape(d,-1)`,
read column by column). -/
def allIdx : List ℕ → List (List ℕ)
  | [] => [[]]
  | n :: s => (List.range n).flatMap (fun i => (allIdx s).map (i :: ·))

theorem mem_allIdx {s i : List ℕ} : i ∈ allIdx s ↔ InR s i := by
  induction s generalizing i with
  | nil => cases i <;> simp [allIdx]
  | cons n s ih =>
    cases i with
    | nil => simp [allIdx]
    | cons j i => simp [allIdx, ih]

theorem allIdx_nodup (s : List ℕ) : (allIdx s).Nodup := by
  induction s with
  | nil => simp [allIdx]
  | cons n s ih =>
    simp only [allIdx]
    rw [List.nodup_flatMap]
    refine ⟨fun i _ => ih.map (fun a b h => by simpa using h), ?_⟩
    refine (List.nodup_range (n := n)).imp ?_
    intro a b hab
    simp only [Function.onFun, List.disjoint_left, List.mem_map, not_exists, not_and]
    rintro _ ⟨x, _, rfl⟩ y _ h
    simp at h; exact hab h.1.symm

end TTS
