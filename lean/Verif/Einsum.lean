import Verif.ND

/-!
# The einsum calls of tt-sketch

Each `np.einsum(subscripts, ...)` occurring in the code is given a name, and its shape and entries
are computed from the general definition `ND.einsum`.  (Generated once from the list of subscript
strings.)
-/

namespace TTS.ND
open Finset
variable {K : Type*}

theorem oob1 [Zero K] {A : ND K} {p x : ℕ} (h : A.shape = [p]) (hx : ¬ x < p) : A.get [x] = 0 :=
  A.supp _ (by rw [h]; simp [hx])
theorem oob2 [Zero K] {A : ND K} {p q x y : ℕ} (h : A.shape = [p, q]) (hx : ¬ (x < p ∧ y < q)) :
    A.get [x, y] = 0 := A.supp _ (by rw [h]; simpa using hx)
theorem oob3 [Zero K] {A : ND K} {p q r x y z : ℕ} (h : A.shape = [p, q, r])
    (hx : ¬ (x < p ∧ y < q ∧ z < r)) : A.get [x, y, z] = 0 := A.supp _ (by rw [h]; simpa using hx)
theorem oob4 [Zero K] {A : ND K} {p q r s x y z w : ℕ} (h : A.shape = [p, q, r, s])
    (hx : ¬ (x < p ∧ y < q ∧ z < r ∧ w < s)) : A.get [x, y, z, w] = 0 :=
  A.supp _ (by rw [h]; simpa using hx)

variable [CommSemiring K]

/-- `np.einsum("ij,jkl->ikl", A, B)` -/
def es_ij_jkl_ikl (A B : ND K) : ND K :=
  einsum [([.i, .j], A), ([.j, .k, .l], B)] [.i, .k, .l]

theorem es_ij_jkl_ikl_shape {A B : ND K} {ni nj nj' nk nl : ℕ}
    (hA : A.shape = [ni, nj]) (hB : B.shape = [nj', nk, nl]) :
    (es_ij_jkl_ikl A B).shape = [ni, nk, nl] := by
  simp [es_ij_jkl_ikl, einsum, hA, hB, lbDim, lbGet?]

theorem es_ij_jkl_ikl_get {A B : ND K} {ni nj nj' nk nl : ℕ}
    (hA : A.shape = [ni, nj]) (hB : B.shape = [nj', nk, nl]) (xi xk xl : ℕ) :
    (es_ij_jkl_ikl A B).get [xi, xk, xl] =
      ∑ xj ∈ range nj, A.get [xi, xj] * B.get [xj, xk, xl] := by
  by_cases h : InR (es_ij_jkl_ikl A B).shape [xi, xk, xl]
  · rw [es_ij_jkl_ikl_shape hA hB] at h
    simp only [inR_cons_cons, inR_nil_nil, and_true] at h
    simp [es_ij_jkl_ikl, einsum, hA, hB, lbSummed, lbDim, lbGet?, ofFn_get', lbVal, h]
  · rw [supp _ _ h]
    rw [es_ij_jkl_ikl_shape hA hB] at h
    simp only [inR_cons_cons, inR_nil_nil, and_true] at h
    symm
    apply sum_eq_zero; intro xj _
    by_cases hi : xi < ni
    swap
    · rw [oob2 (x := xi) (y := xj) hA (by tauto)]; simp
    by_cases hk : xk < nk
    swap
    · rw [oob3 (x := xj) (y := xk) (z := xl) hB (by tauto)]; simp
    by_cases hl : xl < nl
    swap
    · rw [oob3 (x := xj) (y := xk) (z := xl) hB (by tauto)]; simp
    exact absurd (by tauto) h

/-- `np.einsum("ijk,kl->ijl", A, B)` -/
def es_ijk_kl_ijl (A B : ND K) : ND K :=
  einsum [([.i, .j, .k], A), ([.k, .l], B)] [.i, .j, .l]

theorem es_ijk_kl_ijl_shape {A B : ND K} {ni nj nk nk' nl : ℕ}
    (hA : A.shape = [ni, nj, nk]) (hB : B.shape = [nk', nl]) :
    (es_ijk_kl_ijl A B).shape = [ni, nj, nl] := by
  simp [es_ijk_kl_ijl, einsum, hA, hB, lbDim, lbGet?]

theorem es_ijk_kl_ijl_get {A B : ND K} {ni nj nk nk' nl : ℕ}
    (hA : A.shape = [ni, nj, nk]) (hB : B.shape = [nk', nl]) (xi xj xl : ℕ) :
    (es_ijk_kl_ijl A B).get [xi, xj, xl] =
      ∑ xk ∈ range nk, A.get [xi, xj, xk] * B.get [xk, xl] := by
  by_cases h : InR (es_ijk_kl_ijl A B).shape [xi, xj, xl]
  · rw [es_ijk_kl_ijl_shape hA hB] at h
    simp only [inR_cons_cons, inR_nil_nil, and_true] at h
    simp [es_ijk_kl_ijl, einsum, hA, hB, lbSummed, lbDim, lbGet?, ofFn_get', lbVal, h]
  · rw [supp _ _ h]
    rw [es_ijk_kl_ijl_shape hA hB] at h
    simp only [inR_cons_cons, inR_nil_nil, and_true] at h
    symm
    apply sum_eq_zero; intro xk _
    by_cases hi : xi < ni
    swap
    · rw [oob3 (x := xi) (y := xj) (z := xk) hA (by tauto)]; simp
    by_cases hj : xj < nj
    swap
    · rw [oob3 (x := xi) (y := xj) (z := xk) hA (by tauto)]; simp
    by_cases hl : xl < nl
    swap
    · rw [oob2 (x := xk) (y := xl) hB (by tauto)]; simp
    exact absurd (by tauto) h

/-- `np.einsum("ijk,ljm->km", A, B)` -/
def es_ijk_ljm_km (A B : ND K) : ND K :=
  einsum [([.i, .j, .k], A), ([.l, .j, .m], B)] [.k, .m]

theorem es_ijk_ljm_km_shape {A B : ND K} {ni nj nk nl nj' nm : ℕ}
    (hA : A.shape = [ni, nj, nk]) (hB : B.shape = [nl, nj', nm]) :
    (es_ijk_ljm_km A B).shape = [nk, nm] := by
  simp [es_ijk_ljm_km, einsum, hA, hB, lbDim, lbGet?]

theorem es_ijk_ljm_km_get {A B : ND K} {ni nj nk nl nj' nm : ℕ}
    (hA : A.shape = [ni, nj, nk]) (hB : B.shape = [nl, nj', nm]) (xk xm : ℕ) :
    (es_ijk_ljm_km A B).get [xk, xm] =
      ∑ xi ∈ range ni, ∑ xl ∈ range nl, ∑ xj ∈ range nj, A.get [xi, xj, xk] * B.get [xl, xj, xm] := by
  by_cases h : InR (es_ijk_ljm_km A B).shape [xk, xm]
  · rw [es_ijk_ljm_km_shape hA hB] at h
    simp only [inR_cons_cons, inR_nil_nil, and_true] at h
    simp [es_ijk_ljm_km, einsum, hA, hB, lbSummed, lbDim, lbGet?, ofFn_get', lbVal, h]
  · rw [supp _ _ h]
    rw [es_ijk_ljm_km_shape hA hB] at h
    simp only [inR_cons_cons, inR_nil_nil, and_true] at h
    symm
    apply sum_eq_zero; intro xi _
    apply sum_eq_zero; intro xl _
    apply sum_eq_zero; intro xj _
    by_cases hk : xk < nk
    swap
    · rw [oob3 (x := xi) (y := xj) (z := xk) hA (by tauto)]; simp
    by_cases hm : xm < nm
    swap
    · rw [oob3 (x := xl) (y := xj) (z := xm) hB (by tauto)]; simp
    exact absurd (by tauto) h

/-- `np.einsum("ij,ika,jkb->ab", A, B, C)` -/
def es_ij_ika_jkb_ab (A B C : ND K) : ND K :=
  einsum [([.i, .j], A), ([.i, .k, .a], B), ([.j, .k, .b], C)] [.a, .b]

theorem es_ij_ika_jkb_ab_shape {A B C : ND K} {ni nj ni' nk na nj'' nk'' nb : ℕ}
    (hA : A.shape = [ni, nj]) (hB : B.shape = [ni', nk, na]) (hC : C.shape = [nj'', nk'', nb]) :
    (es_ij_ika_jkb_ab A B C).shape = [na, nb] := by
  simp [es_ij_ika_jkb_ab, einsum, hA, hB, hC, lbDim, lbGet?]

theorem es_ij_ika_jkb_ab_get {A B C : ND K} {ni nj ni' nk na nj'' nk'' nb : ℕ}
    (hA : A.shape = [ni, nj]) (hB : B.shape = [ni', nk, na]) (hC : C.shape = [nj'', nk'', nb]) (xa xb : ℕ) :
    (es_ij_ika_jkb_ab A B C).get [xa, xb] =
      ∑ xi ∈ range ni, ∑ xj ∈ range nj, ∑ xk ∈ range nk, A.get [xi, xj] * (B.get [xi, xk, xa] * (C.get [xj, xk, xb])) := by
  by_cases h : InR (es_ij_ika_jkb_ab A B C).shape [xa, xb]
  · rw [es_ij_ika_jkb_ab_shape hA hB hC] at h
    simp only [inR_cons_cons, inR_nil_nil, and_true] at h
    simp [es_ij_ika_jkb_ab, einsum, hA, hB, hC, lbSummed, lbDim, lbGet?, ofFn_get', lbVal, h]
  · rw [supp _ _ h]
    rw [es_ij_ika_jkb_ab_shape hA hB hC] at h
    simp only [inR_cons_cons, inR_nil_nil, and_true] at h
    symm
    apply sum_eq_zero; intro xi _
    apply sum_eq_zero; intro xj _
    apply sum_eq_zero; intro xk _
    by_cases ha : xa < na
    swap
    · rw [oob3 (x := xi) (y := xk) (z := xa) hB (by tauto)]; simp
    by_cases hb : xb < nb
    swap
    · rw [oob3 (x := xj) (y := xk) (z := xb) hC (by tauto)]; simp
    exact absurd (by tauto) h

/-- `np.einsum("ijk,jl->ilk", A, B)` -/
def es_ijk_jl_ilk (A B : ND K) : ND K :=
  einsum [([.i, .j, .k], A), ([.j, .l], B)] [.i, .l, .k]

theorem es_ijk_jl_ilk_shape {A B : ND K} {ni nj nk nj' nl : ℕ}
    (hA : A.shape = [ni, nj, nk]) (hB : B.shape = [nj', nl]) :
    (es_ijk_jl_ilk A B).shape = [ni, nl, nk] := by
  simp [es_ijk_jl_ilk, einsum, hA, hB, lbDim, lbGet?]

theorem es_ijk_jl_ilk_get {A B : ND K} {ni nj nk nj' nl : ℕ}
    (hA : A.shape = [ni, nj, nk]) (hB : B.shape = [nj', nl]) (xi xl xk : ℕ) :
    (es_ijk_jl_ilk A B).get [xi, xl, xk] =
      ∑ xj ∈ range nj, A.get [xi, xj, xk] * B.get [xj, xl] := by
  by_cases h : InR (es_ijk_jl_ilk A B).shape [xi, xl, xk]
  · rw [es_ijk_jl_ilk_shape hA hB] at h
    simp only [inR_cons_cons, inR_nil_nil, and_true] at h
    simp [es_ijk_jl_ilk, einsum, hA, hB, lbSummed, lbDim, lbGet?, ofFn_get', lbVal, h]
  · rw [supp _ _ h]
    rw [es_ijk_jl_ilk_shape hA hB] at h
    simp only [inR_cons_cons, inR_nil_nil, and_true] at h
    symm
    apply sum_eq_zero; intro xj _
    by_cases hi : xi < ni
    swap
    · rw [oob3 (x := xi) (y := xj) (z := xk) hA (by tauto)]; simp
    by_cases hl : xl < nl
    swap
    · rw [oob2 (x := xj) (y := xl) hB (by tauto)]; simp
    by_cases hk : xk < nk
    swap
    · rw [oob3 (x := xi) (y := xj) (z := xk) hA (by tauto)]; simp
    exact absurd (by tauto) h

/-- `np.einsum("ijk,ji->jk", A, B)` -/
def es_ijk_ji_jk (A B : ND K) : ND K :=
  einsum [([.i, .j, .k], A), ([.j, .i], B)] [.j, .k]

theorem es_ijk_ji_jk_shape {A B : ND K} {ni nj nk nj' ni' : ℕ}
    (hA : A.shape = [ni, nj, nk]) (hB : B.shape = [nj', ni']) :
    (es_ijk_ji_jk A B).shape = [nj, nk] := by
  simp [es_ijk_ji_jk, einsum, hA, hB, lbDim, lbGet?]

theorem es_ijk_ji_jk_get {A B : ND K} {ni nj nk nj' ni' : ℕ}
    (hA : A.shape = [ni, nj, nk]) (hB : B.shape = [nj', ni']) (xj xk : ℕ) :
    (es_ijk_ji_jk A B).get [xj, xk] =
      ∑ xi ∈ range ni, A.get [xi, xj, xk] * B.get [xj, xi] := by
  by_cases h : InR (es_ijk_ji_jk A B).shape [xj, xk]
  · rw [es_ijk_ji_jk_shape hA hB] at h
    simp only [inR_cons_cons, inR_nil_nil, and_true] at h
    simp [es_ijk_ji_jk, einsum, hA, hB, lbSummed, lbDim, lbGet?, ofFn_get', lbVal, h]
  · rw [supp _ _ h]
    rw [es_ijk_ji_jk_shape hA hB] at h
    simp only [inR_cons_cons, inR_nil_nil, and_true] at h
    symm
    apply sum_eq_zero; intro xi _
    by_cases hj : xj < nj
    swap
    · rw [oob3 (x := xi) (y := xj) (z := xk) hA (by tauto)]; simp
    by_cases hk : xk < nk
    swap
    · rw [oob3 (x := xi) (y := xj) (z := xk) hA (by tauto)]; simp
    exact absurd (by tauto) h

/-- `np.einsum("ijk,ijl->kl", A, B)` -/
def es_ijk_ijl_kl (A B : ND K) : ND K :=
  einsum [([.i, .j, .k], A), ([.i, .j, .l], B)] [.k, .l]

theorem es_ijk_ijl_kl_shape {A B : ND K} {ni nj nk ni' nj' nl : ℕ}
    (hA : A.shape = [ni, nj, nk]) (hB : B.shape = [ni', nj', nl]) :
    (es_ijk_ijl_kl A B).shape = [nk, nl] := by
  simp [es_ijk_ijl_kl, einsum, hA, hB, lbDim, lbGet?]

theorem es_ijk_ijl_kl_get {A B : ND K} {ni nj nk ni' nj' nl : ℕ}
    (hA : A.shape = [ni, nj, nk]) (hB : B.shape = [ni', nj', nl]) (xk xl : ℕ) :
    (es_ijk_ijl_kl A B).get [xk, xl] =
      ∑ xi ∈ range ni, ∑ xj ∈ range nj, A.get [xi, xj, xk] * B.get [xi, xj, xl] := by
  by_cases h : InR (es_ijk_ijl_kl A B).shape [xk, xl]
  · rw [es_ijk_ijl_kl_shape hA hB] at h
    simp only [inR_cons_cons, inR_nil_nil, and_true] at h
    simp [es_ijk_ijl_kl, einsum, hA, hB, lbSummed, lbDim, lbGet?, ofFn_get', lbVal, h]
  · rw [supp _ _ h]
    rw [es_ijk_ijl_kl_shape hA hB] at h
    simp only [inR_cons_cons, inR_nil_nil, and_true] at h
    symm
    apply sum_eq_zero; intro xi _
    apply sum_eq_zero; intro xj _
    by_cases hk : xk < nk
    swap
    · rw [oob3 (x := xi) (y := xj) (z := xk) hA (by tauto)]; simp
    by_cases hl : xl < nl
    swap
    · rw [oob3 (x := xi) (y := xj) (z := xl) hB (by tauto)]; simp
    exact absurd (by tauto) h

/-- `np.einsum("ij,ikl,jkm->lm", A, B, C)` -/
def es_ij_ikl_jkm_lm (A B C : ND K) : ND K :=
  einsum [([.i, .j], A), ([.i, .k, .l], B), ([.j, .k, .m], C)] [.l, .m]

theorem es_ij_ikl_jkm_lm_shape {A B C : ND K} {ni nj ni' nk nl nj'' nk'' nm : ℕ}
    (hA : A.shape = [ni, nj]) (hB : B.shape = [ni', nk, nl]) (hC : C.shape = [nj'', nk'', nm]) :
    (es_ij_ikl_jkm_lm A B C).shape = [nl, nm] := by
  simp [es_ij_ikl_jkm_lm, einsum, hA, hB, hC, lbDim, lbGet?]

theorem es_ij_ikl_jkm_lm_get {A B C : ND K} {ni nj ni' nk nl nj'' nk'' nm : ℕ}
    (hA : A.shape = [ni, nj]) (hB : B.shape = [ni', nk, nl]) (hC : C.shape = [nj'', nk'', nm]) (xl xm : ℕ) :
    (es_ij_ikl_jkm_lm A B C).get [xl, xm] =
      ∑ xi ∈ range ni, ∑ xj ∈ range nj, ∑ xk ∈ range nk, A.get [xi, xj] * (B.get [xi, xk, xl] * (C.get [xj, xk, xm])) := by
  by_cases h : InR (es_ij_ikl_jkm_lm A B C).shape [xl, xm]
  · rw [es_ij_ikl_jkm_lm_shape hA hB hC] at h
    simp only [inR_cons_cons, inR_nil_nil, and_true] at h
    simp [es_ij_ikl_jkm_lm, einsum, hA, hB, hC, lbSummed, lbDim, lbGet?, ofFn_get', lbVal, h]
  · rw [supp _ _ h]
    rw [es_ij_ikl_jkm_lm_shape hA hB hC] at h
    simp only [inR_cons_cons, inR_nil_nil, and_true] at h
    symm
    apply sum_eq_zero; intro xi _
    apply sum_eq_zero; intro xj _
    apply sum_eq_zero; intro xk _
    by_cases hl : xl < nl
    swap
    · rw [oob3 (x := xi) (y := xk) (z := xl) hB (by tauto)]; simp
    by_cases hm : xm < nm
    swap
    · rw [oob3 (x := xj) (y := xk) (z := xm) hC (by tauto)]; simp
    exact absurd (by tauto) h

/-- `np.einsum("ij,lik->jk", A, B)` -/
def es_ij_lik_jk (A B : ND K) : ND K :=
  einsum [([.i, .j], A), ([.l, .i, .k], B)] [.j, .k]

theorem es_ij_lik_jk_shape {A B : ND K} {ni nj nl ni' nk : ℕ}
    (hA : A.shape = [ni, nj]) (hB : B.shape = [nl, ni', nk]) :
    (es_ij_lik_jk A B).shape = [nj, nk] := by
  simp [es_ij_lik_jk, einsum, hA, hB, lbDim, lbGet?]

theorem es_ij_lik_jk_get {A B : ND K} {ni nj nl ni' nk : ℕ}
    (hA : A.shape = [ni, nj]) (hB : B.shape = [nl, ni', nk]) (xj xk : ℕ) :
    (es_ij_lik_jk A B).get [xj, xk] =
      ∑ xl ∈ range nl, ∑ xi ∈ range ni, A.get [xi, xj] * B.get [xl, xi, xk] := by
  by_cases h : InR (es_ij_lik_jk A B).shape [xj, xk]
  · rw [es_ij_lik_jk_shape hA hB] at h
    simp only [inR_cons_cons, inR_nil_nil, and_true] at h
    simp [es_ij_lik_jk, einsum, hA, hB, lbSummed, lbDim, lbGet?, ofFn_get', lbVal, h]
  · rw [supp _ _ h]
    rw [es_ij_lik_jk_shape hA hB] at h
    simp only [inR_cons_cons, inR_nil_nil, and_true] at h
    symm
    apply sum_eq_zero; intro xl _
    apply sum_eq_zero; intro xi _
    by_cases hj : xj < nj
    swap
    · rw [oob2 (x := xi) (y := xj) hA (by tauto)]; simp
    by_cases hk : xk < nk
    swap
    · rw [oob3 (x := xl) (y := xi) (z := xk) hB (by tauto)]; simp
    exact absurd (by tauto) h

/-- `np.einsum("ij,ki,jkl->il", A, B, C)` -/
def es_ij_ki_jkl_il (A B C : ND K) : ND K :=
  einsum [([.i, .j], A), ([.k, .i], B), ([.j, .k, .l], C)] [.i, .l]

theorem es_ij_ki_jkl_il_shape {A B C : ND K} {ni nj nk ni' nj'' nk'' nl : ℕ}
    (hA : A.shape = [ni, nj]) (hB : B.shape = [nk, ni']) (hC : C.shape = [nj'', nk'', nl]) :
    (es_ij_ki_jkl_il A B C).shape = [ni, nl] := by
  simp [es_ij_ki_jkl_il, einsum, hA, hB, hC, lbDim, lbGet?]

theorem es_ij_ki_jkl_il_get {A B C : ND K} {ni nj nk ni' nj'' nk'' nl : ℕ}
    (hA : A.shape = [ni, nj]) (hB : B.shape = [nk, ni']) (hC : C.shape = [nj'', nk'', nl]) (xi xl : ℕ) :
    (es_ij_ki_jkl_il A B C).get [xi, xl] =
      ∑ xj ∈ range nj, ∑ xk ∈ range nk, A.get [xi, xj] * (B.get [xk, xi] * (C.get [xj, xk, xl])) := by
  by_cases h : InR (es_ij_ki_jkl_il A B C).shape [xi, xl]
  · rw [es_ij_ki_jkl_il_shape hA hB hC] at h
    simp only [inR_cons_cons, inR_nil_nil, and_true] at h
    simp [es_ij_ki_jkl_il, einsum, hA, hB, hC, lbSummed, lbDim, lbGet?, ofFn_get', lbVal, h]
  · rw [supp _ _ h]
    rw [es_ij_ki_jkl_il_shape hA hB hC] at h
    simp only [inR_cons_cons, inR_nil_nil, and_true] at h
    symm
    apply sum_eq_zero; intro xj _
    apply sum_eq_zero; intro xk _
    by_cases hi : xi < ni
    swap
    · rw [oob2 (x := xi) (y := xj) hA (by tauto)]; simp
    by_cases hl : xl < nl
    swap
    · rw [oob3 (x := xj) (y := xk) (z := xl) hC (by tauto)]; simp
    exact absurd (by tauto) h

/-- `np.einsum("jkl,km->jml", A, B)` -/
def es_jkl_km_jml (A B : ND K) : ND K :=
  einsum [([.j, .k, .l], A), ([.k, .m], B)] [.j, .m, .l]

theorem es_jkl_km_jml_shape {A B : ND K} {nj nk nl nk' nm : ℕ}
    (hA : A.shape = [nj, nk, nl]) (hB : B.shape = [nk', nm]) :
    (es_jkl_km_jml A B).shape = [nj, nm, nl] := by
  simp [es_jkl_km_jml, einsum, hA, hB, lbDim, lbGet?]

theorem es_jkl_km_jml_get {A B : ND K} {nj nk nl nk' nm : ℕ}
    (hA : A.shape = [nj, nk, nl]) (hB : B.shape = [nk', nm]) (xj xm xl : ℕ) :
    (es_jkl_km_jml A B).get [xj, xm, xl] =
      ∑ xk ∈ range nk, A.get [xj, xk, xl] * B.get [xk, xm] := by
  by_cases h : InR (es_jkl_km_jml A B).shape [xj, xm, xl]
  · rw [es_jkl_km_jml_shape hA hB] at h
    simp only [inR_cons_cons, inR_nil_nil, and_true] at h
    simp [es_jkl_km_jml, einsum, hA, hB, lbSummed, lbDim, lbGet?, ofFn_get', lbVal, h]
  · rw [supp _ _ h]
    rw [es_jkl_km_jml_shape hA hB] at h
    simp only [inR_cons_cons, inR_nil_nil, and_true] at h
    symm
    apply sum_eq_zero; intro xk _
    by_cases hj : xj < nj
    swap
    · rw [oob3 (x := xj) (y := xk) (z := xl) hA (by tauto)]; simp
    by_cases hm : xm < nm
    swap
    · rw [oob2 (x := xk) (y := xm) hB (by tauto)]; simp
    by_cases hl : xl < nl
    swap
    · rw [oob3 (x := xj) (y := xk) (z := xl) hA (by tauto)]; simp
    exact absurd (by tauto) h

/-- `np.einsum("ij,jml->iml", A, B)` -/
def es_ij_jml_iml (A B : ND K) : ND K :=
  einsum [([.i, .j], A), ([.j, .m, .l], B)] [.i, .m, .l]

theorem es_ij_jml_iml_shape {A B : ND K} {ni nj nj' nm nl : ℕ}
    (hA : A.shape = [ni, nj]) (hB : B.shape = [nj', nm, nl]) :
    (es_ij_jml_iml A B).shape = [ni, nm, nl] := by
  simp [es_ij_jml_iml, einsum, hA, hB, lbDim, lbGet?]

theorem es_ij_jml_iml_get {A B : ND K} {ni nj nj' nm nl : ℕ}
    (hA : A.shape = [ni, nj]) (hB : B.shape = [nj', nm, nl]) (xi xm xl : ℕ) :
    (es_ij_jml_iml A B).get [xi, xm, xl] =
      ∑ xj ∈ range nj, A.get [xi, xj] * B.get [xj, xm, xl] := by
  by_cases h : InR (es_ij_jml_iml A B).shape [xi, xm, xl]
  · rw [es_ij_jml_iml_shape hA hB] at h
    simp only [inR_cons_cons, inR_nil_nil, and_true] at h
    simp [es_ij_jml_iml, einsum, hA, hB, lbSummed, lbDim, lbGet?, ofFn_get', lbVal, h]
  · rw [supp _ _ h]
    rw [es_ij_jml_iml_shape hA hB] at h
    simp only [inR_cons_cons, inR_nil_nil, and_true] at h
    symm
    apply sum_eq_zero; intro xj _
    by_cases hi : xi < ni
    swap
    · rw [oob2 (x := xi) (y := xj) hA (by tauto)]; simp
    by_cases hm : xm < nm
    swap
    · rw [oob3 (x := xj) (y := xm) (z := xl) hB (by tauto)]; simp
    by_cases hl : xl < nl
    swap
    · rw [oob3 (x := xj) (y := xm) (z := xl) hB (by tauto)]; simp
    exact absurd (by tauto) h

/-- `np.einsum("ji,il->jl", A, B)` -/
def es_ji_il_jl (A B : ND K) : ND K :=
  einsum [([.j, .i], A), ([.i, .l], B)] [.j, .l]

theorem es_ji_il_jl_shape {A B : ND K} {nj ni ni' nl : ℕ}
    (hA : A.shape = [nj, ni]) (hB : B.shape = [ni', nl]) :
    (es_ji_il_jl A B).shape = [nj, nl] := by
  simp [es_ji_il_jl, einsum, hA, hB, lbDim, lbGet?]

theorem es_ji_il_jl_get {A B : ND K} {nj ni ni' nl : ℕ}
    (hA : A.shape = [nj, ni]) (hB : B.shape = [ni', nl]) (xj xl : ℕ) :
    (es_ji_il_jl A B).get [xj, xl] =
      ∑ xi ∈ range ni, A.get [xj, xi] * B.get [xi, xl] := by
  by_cases h : InR (es_ji_il_jl A B).shape [xj, xl]
  · rw [es_ji_il_jl_shape hA hB] at h
    simp only [inR_cons_cons, inR_nil_nil, and_true] at h
    simp [es_ji_il_jl, einsum, hA, hB, lbSummed, lbDim, lbGet?, ofFn_get', lbVal, h]
  · rw [supp _ _ h]
    rw [es_ji_il_jl_shape hA hB] at h
    simp only [inR_cons_cons, inR_nil_nil, and_true] at h
    symm
    apply sum_eq_zero; intro xi _
    by_cases hj : xj < nj
    swap
    · rw [oob2 (x := xj) (y := xi) hA (by tauto)]; simp
    by_cases hl : xl < nl
    swap
    · rw [oob2 (x := xi) (y := xl) hB (by tauto)]; simp
    exact absurd (by tauto) h

/-- `np.einsum("il,kl->ik", A, B)` -/
def es_il_kl_ik (A B : ND K) : ND K :=
  einsum [([.i, .l], A), ([.k, .l], B)] [.i, .k]

theorem es_il_kl_ik_shape {A B : ND K} {ni nl nk nl' : ℕ}
    (hA : A.shape = [ni, nl]) (hB : B.shape = [nk, nl']) :
    (es_il_kl_ik A B).shape = [ni, nk] := by
  simp [es_il_kl_ik, einsum, hA, hB, lbDim, lbGet?]

theorem es_il_kl_ik_get {A B : ND K} {ni nl nk nl' : ℕ}
    (hA : A.shape = [ni, nl]) (hB : B.shape = [nk, nl']) (xi xk : ℕ) :
    (es_il_kl_ik A B).get [xi, xk] =
      ∑ xl ∈ range nl, A.get [xi, xl] * B.get [xk, xl] := by
  by_cases h : InR (es_il_kl_ik A B).shape [xi, xk]
  · rw [es_il_kl_ik_shape hA hB] at h
    simp only [inR_cons_cons, inR_nil_nil, and_true] at h
    simp [es_il_kl_ik, einsum, hA, hB, lbSummed, lbDim, lbGet?, ofFn_get', lbVal, h]
  · rw [supp _ _ h]
    rw [es_il_kl_ik_shape hA hB] at h
    simp only [inR_cons_cons, inR_nil_nil, and_true] at h
    symm
    apply sum_eq_zero; intro xl _
    by_cases hi : xi < ni
    swap
    · rw [oob2 (x := xi) (y := xl) hA (by tauto)]; simp
    by_cases hk : xk < nk
    swap
    · rw [oob2 (x := xk) (y := xl) hB (by tauto)]; simp
    exact absurd (by tauto) h

/-- `np.einsum("ij,kj,jm->ikm", A, B, C)` -/
def es_ij_kj_jm_ikm (A B C : ND K) : ND K :=
  einsum [([.i, .j], A), ([.k, .j], B), ([.j, .m], C)] [.i, .k, .m]

theorem es_ij_kj_jm_ikm_shape {A B C : ND K} {ni nj nk nj' nj'' nm : ℕ}
    (hA : A.shape = [ni, nj]) (hB : B.shape = [nk, nj']) (hC : C.shape = [nj'', nm]) :
    (es_ij_kj_jm_ikm A B C).shape = [ni, nk, nm] := by
  simp [es_ij_kj_jm_ikm, einsum, hA, hB, hC, lbDim, lbGet?]

theorem es_ij_kj_jm_ikm_get {A B C : ND K} {ni nj nk nj' nj'' nm : ℕ}
    (hA : A.shape = [ni, nj]) (hB : B.shape = [nk, nj']) (hC : C.shape = [nj'', nm]) (xi xk xm : ℕ) :
    (es_ij_kj_jm_ikm A B C).get [xi, xk, xm] =
      ∑ xj ∈ range nj, A.get [xi, xj] * (B.get [xk, xj] * (C.get [xj, xm])) := by
  by_cases h : InR (es_ij_kj_jm_ikm A B C).shape [xi, xk, xm]
  · rw [es_ij_kj_jm_ikm_shape hA hB hC] at h
    simp only [inR_cons_cons, inR_nil_nil, and_true] at h
    simp [es_ij_kj_jm_ikm, einsum, hA, hB, hC, lbSummed, lbDim, lbGet?, ofFn_get', lbVal, h]
  · rw [supp _ _ h]
    rw [es_ij_kj_jm_ikm_shape hA hB hC] at h
    simp only [inR_cons_cons, inR_nil_nil, and_true] at h
    symm
    apply sum_eq_zero; intro xj _
    by_cases hi : xi < ni
    swap
    · rw [oob2 (x := xi) (y := xj) hA (by tauto)]; simp
    by_cases hk : xk < nk
    swap
    · rw [oob2 (x := xk) (y := xj) hB (by tauto)]; simp
    by_cases hm : xm < nm
    swap
    · rw [oob2 (x := xj) (y := xm) hC (by tauto)]; simp
    exact absurd (by tauto) h

/-- `np.einsum("ij,jkl,ml->ikm", A, B, C)` -/
def es_ij_jkl_ml_ikm (A B C : ND K) : ND K :=
  einsum [([.i, .j], A), ([.j, .k, .l], B), ([.m, .l], C)] [.i, .k, .m]

theorem es_ij_jkl_ml_ikm_shape {A B C : ND K} {ni nj nj' nk nl nm nl'' : ℕ}
    (hA : A.shape = [ni, nj]) (hB : B.shape = [nj', nk, nl]) (hC : C.shape = [nm, nl'']) :
    (es_ij_jkl_ml_ikm A B C).shape = [ni, nk, nm] := by
  simp [es_ij_jkl_ml_ikm, einsum, hA, hB, hC, lbDim, lbGet?]

theorem es_ij_jkl_ml_ikm_get {A B C : ND K} {ni nj nj' nk nl nm nl'' : ℕ}
    (hA : A.shape = [ni, nj]) (hB : B.shape = [nj', nk, nl]) (hC : C.shape = [nm, nl'']) (xi xk xm : ℕ) :
    (es_ij_jkl_ml_ikm A B C).get [xi, xk, xm] =
      ∑ xj ∈ range nj, ∑ xl ∈ range nl, A.get [xi, xj] * (B.get [xj, xk, xl] * (C.get [xm, xl])) := by
  by_cases h : InR (es_ij_jkl_ml_ikm A B C).shape [xi, xk, xm]
  · rw [es_ij_jkl_ml_ikm_shape hA hB hC] at h
    simp only [inR_cons_cons, inR_nil_nil, and_true] at h
    simp [es_ij_jkl_ml_ikm, einsum, hA, hB, hC, lbSummed, lbDim, lbGet?, ofFn_get', lbVal, h]
  · rw [supp _ _ h]
    rw [es_ij_jkl_ml_ikm_shape hA hB hC] at h
    simp only [inR_cons_cons, inR_nil_nil, and_true] at h
    symm
    apply sum_eq_zero; intro xj _
    apply sum_eq_zero; intro xl _
    by_cases hi : xi < ni
    swap
    · rw [oob2 (x := xi) (y := xj) hA (by tauto)]; simp
    by_cases hk : xk < nk
    swap
    · rw [oob3 (x := xj) (y := xk) (z := xl) hB (by tauto)]; simp
    by_cases hm : xm < nm
    swap
    · rw [oob2 (x := xm) (y := xl) hC (by tauto)]; simp
    exact absurd (by tauto) h

/-- `np.einsum("ij,jkl,lm->ikm", A, B, C)` -/
def es_ij_jkl_lm_ikm (A B C : ND K) : ND K :=
  einsum [([.i, .j], A), ([.j, .k, .l], B), ([.l, .m], C)] [.i, .k, .m]

theorem es_ij_jkl_lm_ikm_shape {A B C : ND K} {ni nj nj' nk nl nl'' nm : ℕ}
    (hA : A.shape = [ni, nj]) (hB : B.shape = [nj', nk, nl]) (hC : C.shape = [nl'', nm]) :
    (es_ij_jkl_lm_ikm A B C).shape = [ni, nk, nm] := by
  simp [es_ij_jkl_lm_ikm, einsum, hA, hB, hC, lbDim, lbGet?]

theorem es_ij_jkl_lm_ikm_get {A B C : ND K} {ni nj nj' nk nl nl'' nm : ℕ}
    (hA : A.shape = [ni, nj]) (hB : B.shape = [nj', nk, nl]) (hC : C.shape = [nl'', nm]) (xi xk xm : ℕ) :
    (es_ij_jkl_lm_ikm A B C).get [xi, xk, xm] =
      ∑ xj ∈ range nj, ∑ xl ∈ range nl, A.get [xi, xj] * (B.get [xj, xk, xl] * (C.get [xl, xm])) := by
  by_cases h : InR (es_ij_jkl_lm_ikm A B C).shape [xi, xk, xm]
  · rw [es_ij_jkl_lm_ikm_shape hA hB hC] at h
    simp only [inR_cons_cons, inR_nil_nil, and_true] at h
    simp [es_ij_jkl_lm_ikm, einsum, hA, hB, hC, lbSummed, lbDim, lbGet?, ofFn_get', lbVal, h]
  · rw [supp _ _ h]
    rw [es_ij_jkl_lm_ikm_shape hA hB hC] at h
    simp only [inR_cons_cons, inR_nil_nil, and_true] at h
    symm
    apply sum_eq_zero; intro xj _
    apply sum_eq_zero; intro xl _
    by_cases hi : xi < ni
    swap
    · rw [oob2 (x := xi) (y := xj) hA (by tauto)]; simp
    by_cases hk : xk < nk
    swap
    · rw [oob3 (x := xj) (y := xk) (z := xl) hB (by tauto)]; simp
    by_cases hm : xm < nm
    swap
    · rw [oob2 (x := xl) (y := xm) hC (by tauto)]; simp
    exact absurd (by tauto) h

/-- `np.einsum("ijkl,ajb->iaklb", A, B)` -/
def es_ijkl_ajb_iaklb (A B : ND K) : ND K :=
  einsum [([.i, .j, .k, .l], A), ([.a, .j, .b], B)] [.i, .a, .k, .l, .b]

theorem es_ijkl_ajb_iaklb_shape {A B : ND K} {ni nj nk nl na nj' nb : ℕ}
    (hA : A.shape = [ni, nj, nk, nl]) (hB : B.shape = [na, nj', nb]) :
    (es_ijkl_ajb_iaklb A B).shape = [ni, na, nk, nl, nb] := by
  simp [es_ijkl_ajb_iaklb, einsum, hA, hB, lbDim, lbGet?]

theorem es_ijkl_ajb_iaklb_get {A B : ND K} {ni nj nk nl na nj' nb : ℕ}
    (hA : A.shape = [ni, nj, nk, nl]) (hB : B.shape = [na, nj', nb]) (xi xa xk xl xb : ℕ) :
    (es_ijkl_ajb_iaklb A B).get [xi, xa, xk, xl, xb] =
      ∑ xj ∈ range nj, A.get [xi, xj, xk, xl] * B.get [xa, xj, xb] := by
  by_cases h : InR (es_ijkl_ajb_iaklb A B).shape [xi, xa, xk, xl, xb]
  · rw [es_ijkl_ajb_iaklb_shape hA hB] at h
    simp only [inR_cons_cons, inR_nil_nil, and_true] at h
    simp [es_ijkl_ajb_iaklb, einsum, hA, hB, lbSummed, lbDim, lbGet?, ofFn_get', lbVal, h]
  · rw [supp _ _ h]
    rw [es_ijkl_ajb_iaklb_shape hA hB] at h
    simp only [inR_cons_cons, inR_nil_nil, and_true] at h
    symm
    apply sum_eq_zero; intro xj _
    by_cases hi : xi < ni
    swap
    · rw [oob4 (x := xi) (y := xj) (z := xk) (w := xl) hA (by tauto)]; simp
    by_cases ha : xa < na
    swap
    · rw [oob3 (x := xa) (y := xj) (z := xb) hB (by tauto)]; simp
    by_cases hk : xk < nk
    swap
    · rw [oob4 (x := xi) (y := xj) (z := xk) (w := xl) hA (by tauto)]; simp
    by_cases hl : xl < nl
    swap
    · rw [oob4 (x := xi) (y := xj) (z := xk) (w := xl) hA (by tauto)]; simp
    by_cases hb : xb < nb
    swap
    · rw [oob3 (x := xa) (y := xj) (z := xb) hB (by tauto)]; simp
    exact absurd (by tauto) h

end TTS.ND
