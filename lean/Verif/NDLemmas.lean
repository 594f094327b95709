import Verif.Einsum
import Mathlib.Data.List.GetD
import Mathlib.Tactic.IntervalCases

/-! More lemmas about the array model: ellipsis einsums, reshapes and transposes. -/

namespace TTS.ND
open Finset
variable {K : Type*}

/-! ### einsum with an ellipsis -/

section
variable [CommSemiring K]

/-- `np.einsum("...j,jkl->...kl", A, C)` -/
def es_ej_jkl (A C : ND K) : ND K := einsumE A [.j] C [.j, .k, .l] [.k, .l]

theorem es_ej_jkl_shape {A C : ND K} {s : List ℕ} {q q' n r : ℕ} (hA : A.shape = s ++ [q])
    (hC : C.shape = [q', n, r]) : (es_ej_jkl A C).shape = s ++ [n, r] := by
  simp [es_ej_jkl, einsumE, hA, hC, lbDim, lbGet?, ndim]

theorem es_ej_jkl_get {A C : ND K} {s : List ℕ} {q q' n r : ℕ} (hA : A.shape = s ++ [q])
    (hC : C.shape = [q', n, r]) (p : List ℕ) (hp : p.length = s.length) (y z : ℕ) :
    (es_ej_jkl A C).get (p ++ [y, z]) = ∑ t ∈ range q, A.get (p ++ [t]) * C.get [t, y, z] := by
  by_cases h : InR (es_ej_jkl A C).shape (p ++ [y, z])
  · have h' := h
    rw [es_ej_jkl_shape hA hC] at h'
    simp only [es_ej_jkl, einsumE]
    have hr : InR (A.shape.take (A.ndim - 1) ++ List.map (lbDim [([Lb.j], A.shape.drop (A.ndim - 1)),
      ([Lb.j, Lb.k, Lb.l], C.shape)]) [Lb.k, Lb.l]) (p ++ [y, z]) := by
      simpa [hA, hC, lbDim, lbGet?, ndim] using h'
    have := ofFn_get (K := K) hr (f := fun idx => sumIdx ((lbSummed [Lb.k, Lb.l] ([Lb.j] ++ [Lb.j, Lb.k, Lb.l])).map
      (lbDim [([Lb.j], A.shape.drop (A.ndim - 1)), ([Lb.j, Lb.k, Lb.l], C.shape)])) fun s =>
        A.get (idx.take (A.ndim - 1) ++ [Lb.j].map (lbVal ([Lb.k, Lb.l] ++ lbSummed [Lb.k, Lb.l] ([Lb.j] ++ [Lb.j, Lb.k, Lb.l])) (idx.drop (A.ndim - 1) ++ s)))
        * C.get ([Lb.j, Lb.k, Lb.l].map (lbVal ([Lb.k, Lb.l] ++ lbSummed [Lb.k, Lb.l] ([Lb.j] ++ [Lb.j, Lb.k, Lb.l])) (idx.drop (A.ndim - 1) ++ s))))
    refine this.trans ?_
    simp [hA, hC, lbSummed, lbDim, lbGet?, lbVal, ndim, hp.symm]
  · rw [supp _ _ h]
    rw [es_ej_jkl_shape hA hC, inR_append hp] at h
    symm
    apply sum_eq_zero
    intro t _
    by_cases hps : InR s p
    · rw [oob3 (x := t) (y := y) (z := z) hC, mul_zero]
      intro hh; exact h ⟨hps, hh.2.1, hh.2.2, trivial⟩
    · rw [A.supp (p ++ [t]), zero_mul]
      rw [hA, inR_append hp]; tauto

/-- `np.einsum("...i,ijkl->...jkl", A, C)` -/
def es_ei_ijkl (A C : ND K) : ND K := einsumE A [.i] C [.i, .j, .k, .l] [.j, .k, .l]

theorem es_ei_ijkl_shape {A C : ND K} {s : List ℕ} {q q' n m r : ℕ} (hA : A.shape = s ++ [q])
    (hC : C.shape = [q', n, m, r]) : (es_ei_ijkl A C).shape = s ++ [n, m, r] := by
  simp [es_ei_ijkl, einsumE, hA, hC, lbDim, lbGet?, ndim]

theorem es_ei_ijkl_get {A C : ND K} {s : List ℕ} {q q' n m r : ℕ} (hA : A.shape = s ++ [q])
    (hC : C.shape = [q', n, m, r]) (p : List ℕ) (hp : p.length = s.length) (x y z : ℕ) :
    (es_ei_ijkl A C).get (p ++ [x, y, z])
      = ∑ t ∈ range q, A.get (p ++ [t]) * C.get [t, x, y, z] := by
  by_cases h : InR (es_ei_ijkl A C).shape (p ++ [x, y, z])
  · have h' := h
    rw [es_ei_ijkl_shape hA hC] at h'
    simp only [es_ei_ijkl, einsumE]
    rw [ofFn_get]
    · simp [hA, hC, lbSummed, lbDim, lbGet?, lbVal, ndim, hp.symm]
    · simpa [hA, hC, lbDim, lbGet?, ndim] using h'
  · rw [supp _ _ h]
    rw [es_ei_ijkl_shape hA hC, inR_append hp] at h
    symm
    apply sum_eq_zero
    intro t _
    by_cases hps : InR s p
    · rw [oob4 (x := t) (y := x) (z := y) (w := z) hC, mul_zero]
      intro hh; exact h ⟨hps, hh.2.1, hh.2.2.1, hh.2.2.2, trivial⟩
    · rw [A.supp (p ++ [t]), zero_mul]
      rw [hA, inR_append hp]; tauto

/-- `np.einsum("...j,ij->...ij", A, C)` -/
def es_ej_ij (A C : ND K) : ND K := einsumE A [.j] C [.i, .j] [.i, .j]

theorem es_ej_ij_shape {A C : ND K} {s : List ℕ} {q q' n : ℕ} (hA : A.shape = s ++ [q])
    (hC : C.shape = [n, q']) : (es_ej_ij A C).shape = s ++ [n, q] := by
  simp [es_ej_ij, einsumE, hA, hC, lbDim, lbGet?, ndim]

theorem es_ej_ij_get {A C : ND K} {s : List ℕ} {q q' n : ℕ} (hA : A.shape = s ++ [q])
    (hC : C.shape = [n, q']) (p : List ℕ) (hp : p.length = s.length) (y z : ℕ) :
    (es_ej_ij A C).get (p ++ [y, z]) = A.get (p ++ [z]) * C.get [y, z] := by
  by_cases h : InR (es_ej_ij A C).shape (p ++ [y, z])
  · have h' := h
    rw [es_ej_ij_shape hA hC] at h'
    simp only [es_ej_ij, einsumE]
    rw [ofFn_get]
    · simp [hA, lbSummed, lbVal, ndim, hp.symm]
    · simpa [hA, hC, lbDim, lbGet?, ndim] using h'
  · rw [supp _ _ h]
    rw [es_ej_ij_shape hA hC, inR_append hp] at h
    symm
    by_cases hps : InR s p ∧ z < q
    · rw [oob2 (x := y) (y := z) hC, mul_zero]
      intro hh; exact h ⟨hps.1, hh.1, hps.2, trivial⟩
    · rw [A.supp (p ++ [z]), zero_mul]
      rw [hA, inR_append hp]
      simp only [inR_cons_cons, inR_nil_nil, and_true]; tauto

theorem matmul_shape (A B : ND K) : (A.matmul B).shape = [A.dim 0, B.dim 1] := rfl

theorem matmul_shape' {A B : ND K} {p q q' r : ℕ} (hA : A.shape = [p, q]) (hB : B.shape = [q', r]) :
    (A.matmul B).shape = [p, r] := by simp [matmul, dim, hA, hB]

theorem matmul_get {A B : ND K} {p q q' r : ℕ} (hA : A.shape = [p, q]) (hB : B.shape = [q', r])
    (x y : ℕ) : (A.matmul B).get [x, y] = ∑ k ∈ range q, A.get [x, k] * B.get [k, y] := by
  by_cases h : InR (A.matmul B).shape [x, y]
  · exact (ofFn_get h).trans (by simp [dim, hA])
  · rw [supp _ _ h]
    rw [matmul_shape' hA hB] at h
    simp only [inR_cons_cons, inR_nil_nil, and_true] at h
    symm
    apply sum_eq_zero; intro k _
    by_cases hx : x < p
    · rw [oob2 (x := k) (y := y) hB (by tauto), mul_zero]
    · rw [oob2 (x := x) (y := k) hA (by tauto), zero_mul]

end

section
variable [Zero K]

theorem matT_shape {A : ND K} {p q : ℕ} (hA : A.shape = [p, q]) : A.matT.shape = [q, p] := by
  simp [matT, dim, hA]

theorem matT_get {A : ND K} {p q : ℕ} (hA : A.shape = [p, q]) (x y : ℕ) :
    A.matT.get [x, y] = A.get [y, x] := by
  by_cases h : InR A.matT.shape [x, y]
  · exact (ofFn_get h).trans rfl
  · rw [supp _ _ h]
    rw [matT_shape hA] at h
    simp only [inR_cons_cons, inR_nil_nil, and_true] at h
    rw [oob2 hA (by tauto)]

theorem cols_shape {A : ND K} {p q : ℕ} (hA : A.shape = [p, q]) (a b : ℕ) :
    (A.cols a b).shape = [p, min b q - a] := by simp [cols, dim, hA]

theorem cols_get {A : ND K} {p q : ℕ} (hA : A.shape = [p, q]) (a b x y : ℕ) (hy : a + y < b) :
    (A.cols a b).get [x, y] = A.get [x, a + y] := by
  by_cases h : InR (A.cols a b).shape [x, y]
  · exact (ofFn_get h).trans rfl
  · rw [supp _ _ h]
    rw [cols_shape hA] at h
    simp only [inR_cons_cons, inR_nil_nil, and_true] at h
    rw [oob2 hA]
    intro hh; apply h; omega

theorem rows_shape {A : ND K} {p q : ℕ} (hA : A.shape = [p, q]) (a b : ℕ) :
    (A.rows a b).shape = [min b p - a, q] := by simp [rows, dim, hA]

theorem rows_get {A : ND K} {p q : ℕ} (hA : A.shape = [p, q]) (a b x y : ℕ) (hx : a + x < b) :
    (A.rows a b).get [x, y] = A.get [a + x, y] := by
  by_cases h : InR (A.rows a b).shape [x, y]
  · exact (ofFn_get h).trans rfl
  · rw [supp _ _ h]
    rw [rows_shape hA] at h
    simp only [inR_cons_cons, inR_nil_nil, and_true] at h
    rw [oob2 hA]
    intro hh; apply h; omega

/-! ### reshape -/

/-- General reshape: entries at equal row-major positions agree, in range or not. -/
theorem reshape_get_iff {A : ND K} {s i j : List ℕ} (hij : InR s i ↔ InR A.shape j)
    (h : InR s i → ravel s i = ravel A.shape j) : (A.reshape s).get i = A.get j := by
  by_cases hi : InR s i
  · exact reshape_get_of_ravel hi (hij.1 hi) (h hi)
  · rw [supp _ _ (show ¬ InR (A.reshape s).shape i from hi), A.supp _ (fun hj => hi (hij.2 hj))]

theorem reshape_drop_one {A : ND K} {s : List ℕ} (hA : A.shape = 1 :: s) (i : List ℕ) :
    (A.reshape s).get i = A.get (0 :: i) := by
  refine reshape_get_iff ?_ ?_
  · rw [hA]; simp
  · intro _; rw [hA]; simp

theorem reshape_add_one {A : ND K} {s : List ℕ} (hA : A.shape = s) (i : List ℕ) :
    (A.reshape (1 :: s)).get (0 :: i) = A.get i := by
  refine reshape_get_iff ?_ ?_
  · rw [hA]; simp
  · intro _; rw [hA]; simp

theorem inR_concat_one {s i : List ℕ} : InR (s ++ [1]) (i ++ [0]) ↔ InR s i := by
  by_cases hl : i.length = s.length
  · rw [inR_append hl]; simp
  · constructor
    · intro h; have := h.length; simp at this; omega
    · intro h; exact absurd h.length hl

theorem ravel_concat_one {s i : List ℕ} (h : i.length = s.length) :
    ravel (s ++ [1]) (i ++ [0]) = ravel s i := by
  rw [ravel_append h]; simp

theorem reshape_drop_last_one {A : ND K} {s : List ℕ} (hA : A.shape = s ++ [1]) (i : List ℕ) :
    (A.reshape s).get i = A.get (i ++ [0]) := by
  refine reshape_get_iff ?_ ?_
  · rw [hA, inR_concat_one]
  · intro h; rw [hA, ravel_concat_one h.length]

theorem reshape_add_last_one {A : ND K} {s : List ℕ} (hA : A.shape = s) (i : List ℕ) :
    (A.reshape (s ++ [1])).get (i ++ [0]) = A.get i := by
  refine reshape_get_iff ?_ ?_
  · rw [hA, inR_concat_one]
  · intro h; rw [hA, ravel_concat_one (inR_concat_one.1 h).length]

/-- merging a group of leading axes, keeping axes `u` before and `t` after -/
theorem reshape_merge {A : ND K} {u s t : List ℕ} (hA : A.shape = u ++ s ++ t) {o p q : List ℕ}
    (ho : o.length = u.length) (hp : InR s p) :
    (A.reshape (u ++ s.prod :: t)).get (o ++ ravel s p :: q) = A.get (o ++ p ++ q) := by
  have hlt := ravel_lt hp
  refine reshape_get_iff ?_ ?_
  · rw [hA, inR_append ho, List.append_assoc, List.append_assoc, inR_append ho,
      inR_append hp.length, inR_cons_cons]
    tauto
  · intro _
    rw [hA, ravel_append ho, List.append_assoc, List.append_assoc, ravel_append ho,
      ravel_append hp.length, ravel_cons, List.prod_append, List.prod_cons]

/-- splitting an axis -/
theorem reshape_split {A : ND K} {u s t : List ℕ} (hA : A.shape = u ++ s.prod :: t) {o p q : List ℕ}
    (ho : o.length = u.length) (hp : InR s p) :
    (A.reshape (u ++ s ++ t)).get (o ++ p ++ q) = A.get (o ++ ravel s p :: q) := by
  have hlt := ravel_lt hp
  refine reshape_get_iff ?_ ?_
  · rw [hA, inR_append ho, List.append_assoc, List.append_assoc, inR_append ho,
      inR_append hp.length, inR_cons_cons]
    tauto
  · intro _
    rw [hA, ravel_append ho, List.append_assoc, List.append_assoc, ravel_append ho,
      ravel_append hp.length, ravel_cons, List.prod_append, List.prod_cons]

theorem reshape_merge12 {A : ND K} {a b c : ℕ} (hA : A.shape = [a, b, c]) (x y z : ℕ) (hy : y < b) :
    (A.reshape [a * b, c]).get [x * b + y, z] = A.get [x, y, z] := by
  refine reshape_get_iff ?_ ?_
  · rw [hA]
    simp only [inR_cons_cons, inR_nil_nil, and_true]
    have : x * b + y < a * b ↔ x < a := by
      constructor
      · intro h
        by_contra hx
        have := Nat.mul_le_mul_right b (Nat.le_of_not_lt hx)
        omega
      · intro h
        have := Nat.mul_le_mul_right b (Nat.succ_le_of_lt h)
        rw [Nat.succ_mul] at this
        omega
    tauto
  · intro _; rw [hA]; simp; ring

theorem reshape_split12 {A : ND K} {a b c : ℕ} (hA : A.shape = [a * b, c]) (x y z : ℕ)
    (hy : y < b) : (A.reshape [a, b, c]).get [x, y, z] = A.get [x * b + y, z] := by
  refine reshape_get_iff ?_ ?_
  · rw [hA]
    simp only [inR_cons_cons, inR_nil_nil, and_true]
    have : x * b + y < a * b ↔ x < a := by
      constructor
      · intro h
        by_contra hx
        have := Nat.mul_le_mul_right b (Nat.le_of_not_lt hx)
        omega
      · intro h
        have := Nat.mul_le_mul_right b (Nat.succ_le_of_lt h)
        rw [Nat.succ_mul] at this
        omega
    tauto
  · intro _; rw [hA]; simp; ring

theorem lt_mul_iff {x y b c : ℕ} (hy : y < c) : x * c + y < b * c ↔ x < b := by
  constructor
  · intro h
    by_contra hx
    have := Nat.mul_le_mul_right c (Nat.le_of_not_lt hx)
    omega
  · intro h
    have := Nat.mul_le_mul_right c (Nat.succ_le_of_lt h)
    rw [Nat.succ_mul] at this
    omega

theorem reshape_merge23 {A : ND K} {a b c : ℕ} (hA : A.shape = [a, b, c]) (x y z : ℕ) (hz : z < c) :
    (A.reshape [a, b * c]).get [x, y * c + z] = A.get [x, y, z] := by
  refine reshape_get_iff ?_ ?_
  · rw [hA]
    simp only [inR_cons_cons, inR_nil_nil, and_true]
    rw [lt_mul_iff hz]; tauto
  · intro _; rw [hA]; simp

theorem reshape_split23 {A : ND K} {a b c : ℕ} (hA : A.shape = [a, b * c]) (x y z : ℕ)
    (hz : z < c) : (A.reshape [a, b, c]).get [x, y, z] = A.get [x, y * c + z] := by
  refine reshape_get_iff ?_ ?_
  · rw [hA]
    simp only [inR_cons_cons, inR_nil_nil, and_true]
    rw [lt_mul_iff hz]; tauto
  · intro _; rw [hA]; simp

/-- a full matricization of a shape split `s ++ t` -/
theorem reshape_mat {A : ND K} {s t : List ℕ} (hA : A.shape = s ++ t) {p q : List ℕ}
    (hp : InR s p) (hq : InR t q) :
    (A.reshape [s.prod, t.prod]).get [ravel s p, ravel t q] = A.get (p ++ q) := by
  refine reshape_get_iff ?_ ?_
  · rw [hA, inR_append hp.length]
    have := ravel_lt hp; have := ravel_lt hq
    simp; tauto
  · intro _; rw [hA, ravel_append hp.length]; simp

theorem reshape_mat_unravel {A : ND K} {s t : List ℕ} (hA : A.shape = s ++ t) {x y : ℕ}
    (hx : x < s.prod) (hy : y < t.prod) :
    (A.reshape [s.prod, t.prod]).get [x, y] = A.get (unravel s x ++ unravel t y) := by
  have := reshape_mat hA (unravel_inR hx) (unravel_inR hy)
  rwa [ravel_unravel hx, ravel_unravel hy] at this

/-- undoing a matricization -/
theorem reshape_unmat {A : ND K} {s t : List ℕ} (hA : A.shape = [s.prod, t.prod]) {p q : List ℕ}
    (hp : InR s p) (hq : InR t q) :
    (A.reshape (s ++ t)).get (p ++ q) = A.get [ravel s p, ravel t q] := by
  refine reshape_get_iff ?_ ?_
  · rw [hA, inR_append hp.length]
    have := ravel_lt hp; have := ravel_lt hq
    simp; tauto
  · intro _; rw [hA, ravel_append hp.length]; simp

theorem reshape_flat {A : ND K} {p : List ℕ} (hp : InR A.shape p) :
    (A.reshape [A.shape.prod]).get [ravel A.shape p] = A.get p := by
  refine reshape_get_iff ?_ ?_
  · have := ravel_lt hp; simp; tauto
  · intro _; simp

/-! ### transpose -/

theorem inR_iff_getD {s i : List ℕ} :
    InR s i ↔ i.length = s.length ∧ ∀ k < s.length, i.getD k 0 < s.getD k 0 := by
  induction s generalizing i with
  | nil => cases i <;> simp
  | cons n s ih =>
    cases i with
    | nil => simp
    | cons j i =>
      rw [inR_cons_cons, ih]
      constructor
      · rintro ⟨h1, h2, h3⟩
        refine ⟨by simp [h2], ?_⟩
        intro k hk
        cases k with
        | zero => simpa
        | succ k => simpa using h3 k (by simpa using hk)
      · rintro ⟨h1, h2⟩
        refine ⟨by simpa using h2 0 (by simp), by simpa using h1, ?_⟩
        intro k hk
        simpa using h2 (k + 1) (by simpa using hk)

theorem map_range_getD (l : List ℕ) : (List.range l.length).map (fun a => l.getD a 0) = l := by
  apply List.ext_getElem
  · simp
  · intro i h1 h2; simp [List.getD_eq_getElem?_getD, h2]

/-- `np.transpose` moves the entry at `i` to the permuted index. -/
theorem transpose_get_perm {A : ND K} {perm : List ℕ} (hp : ∀ a < A.ndim, a ∈ perm)
    (hlt : ∀ a ∈ perm, a < A.ndim) {i : List ℕ} (hi : InR A.shape i) :
    (A.transpose perm).get (perm.map fun a => i.getD a 0) = A.get i := by
  have hin : InR (A.transpose perm).shape (perm.map fun a => i.getD a 0) := by
    rw [transpose_shape, inR_iff_getD]
    refine ⟨by simp, fun k hk => ?_⟩
    have hk' : k < perm.length := by simpa using hk
    have h1 := (inR_iff_getD.1 hi).2 (perm[k]) (hlt _ (List.getElem_mem hk'))
    simpa [List.getD_eq_getElem?_getD, hk', dim] using h1
  refine (ofFn_get hin).trans ?_
  congr 1
  have hl : A.ndim = i.length := hi.length.symm
  rw [hl]
  conv_rhs => rw [← map_range_getD i]
  refine List.map_congr_left fun a ha => ?_
  have ha' : a ∈ perm := hp a (by rw [hl]; simpa using ha)
  have hidx : perm.idxOf a < perm.length := List.idxOf_lt_length_of_mem ha'
  rw [List.getD_eq_getElem _ _ (by simpa using hidx), List.getElem_map, List.getElem_idxOf hidx]

theorem transpose_id (A : ND K) : A.transpose (List.range A.ndim) = A := by
  refine ext' ?_ ?_
  · rw [transpose_shape]
    show (List.range A.shape.length).map (fun a => A.shape.getD a 0) = _
    exact map_range_getD _
  · intro i hi
    have e : (A.transpose (List.range A.ndim)).shape = A.shape := by
      rw [transpose_shape]; exact map_range_getD _
    rw [e] at hi
    have := transpose_get_perm (A := A) (perm := List.range A.ndim) (by simp) (by simp) hi
    have h2 : (List.range A.ndim).map (fun a => i.getD a 0) = i := by
      have : A.ndim = i.length := hi.length.symm
      rw [this]; exact map_range_getD _
    rwa [h2] at this

/-- reversing all axes -/
theorem transpose_rev_shape (A : ND K) :
    (A.transpose (List.range A.ndim).reverse).shape = A.shape.reverse := by
  rw [transpose_shape, List.map_reverse]
  congr 1
  exact map_range_getD _

theorem transpose_rev_get (A : ND K) (i : List ℕ) :
    (A.transpose (List.range A.ndim).reverse).get i = A.get i.reverse := by
  by_cases h : InR A.shape i.reverse
  · have := transpose_get_perm (A := A) (perm := (List.range A.ndim).reverse) (by simp) (by simp) h
    rw [List.map_reverse] at this
    have h2 : (List.range A.ndim).map (fun a => i.reverse.getD a 0) = i.reverse := by
      have : A.ndim = i.reverse.length := h.length.symm
      rw [this]; exact map_range_getD _
    rw [h2, List.reverse_reverse] at this
    exact this
  · rw [A.supp _ h, supp]
    rw [transpose_rev_shape, inR_reverse']
    exact h

theorem transpose210_shape {A : ND K} {a b c : ℕ} (hA : A.shape = [a, b, c]) :
    (A.transpose [2, 1, 0]).shape = [c, b, a] := by
  rw [transpose_shape]; simp [dim, hA]

theorem transpose210_get {A : ND K} {a b c : ℕ} (hA : A.shape = [a, b, c]) (x y z : ℕ) :
    (A.transpose [2, 1, 0]).get [x, y, z] = A.get [z, y, x] := by
  have h : A.transpose [2, 1, 0] = A.transpose (List.range A.ndim).reverse := by
    simp [ndim, hA, List.range_succ]
  rw [h, transpose_rev_get]; rfl

theorem transpose0213_shape {A : ND K} {a b c e : ℕ} (hA : A.shape = [a, b, c, e]) :
    (A.transpose [0, 2, 1, 3]).shape = [a, c, b, e] := by
  rw [transpose_shape]; simp [dim, hA]

theorem transpose0213_get {A : ND K} {a b c e : ℕ} (hA : A.shape = [a, b, c, e]) (x y z w : ℕ) :
    (A.transpose [0, 2, 1, 3]).get [x, y, z, w] = A.get [x, z, y, w] := by
  by_cases h : InR A.shape [x, z, y, w]
  · have := transpose_get_perm (A := A) (perm := [0, 2, 1, 3])
      (by simp [ndim, hA]; intro a ha; interval_cases a <;> simp) (by simp [ndim, hA]) h
    simpa using this
  · rw [A.supp _ h, supp]
    rw [transpose0213_shape hA]
    rw [hA] at h
    simp only [inR_cons_cons, inR_nil_nil, and_true] at h ⊢
    tauto

end

end TTS.ND
