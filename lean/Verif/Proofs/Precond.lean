import Verif.Proofs.MPO
import Verif.Proofs.Matricize
import Mathlib.LinearAlgebra.Matrix.NonsingularInverse
import Mathlib.LinearAlgebra.Matrix.Block

namespace TTS

open Finset

theorem mat1_shape {K : Type*} [Zero K] {C : ND K} {r n t : ℕ} (hC : C.shape = [r, n, t]) :
    (C.matricize [1] true).shape = [n, r * t] := by
  rw [matricize_shape_true]
  have : restModes C.ndim [1] = [0, 2] := by simp [restModes, ND.ndim, hC, List.range_succ]
  rw [this, hC]; simp

theorem mat1_get {K : Type*} [Zero K] {C : ND K} {r n t : ℕ} (hC : C.shape = [r, n, t]) {x z : ℕ} (y : ℕ) (hx : x < r)
    (hz : z < t) : (C.matricize [1] true).get [y, x * t + z] = C.get [x, y, z] := by
  by_cases hy : y < n
  · have h : InR C.shape [x, y, z] := by rw [hC]; exact ⟨hx, hy, hz, trivial⟩
    have := matricize_get_true (A := C) (mode := [1]) (by simp [ND.ndim, hC]) h
    have e : restModes C.ndim [1] = [0, 2] := by simp [restModes, ND.ndim, hC, List.range_succ]
    rw [e, hC] at this
    rw [← this]
    simp [ravel]
  · rw [ND.oob2 (mat1_shape hC) (by tauto), ND.oob3 hC (by tauto)]

theorem demat1_shape {K : Type*} [Zero K] {B : ND K} {r n m t k : ℕ} (hB : B.shape = [m, k]) :
    (B.dematricize 1 [r, n, t]).shape = [r, m, t] := by
  simp [ND.dematricize, ND.dim, hB, List.range']

theorem demat1_get {K : Type*} [Zero K] {B : ND K} {r n m t : ℕ} (hB : B.shape = [m, r * t]) {x z : ℕ} (y : ℕ)
    (hx : x < r) (hz : z < t) : (B.dematricize 1 [r, n, t]).get [x, y, z] = B.get [y, x * t + z] := by
  by_cases hy : y < m
  · have e : B.dematricize 1 [r, n, t] = (B.reshape [m, r, t]).transpose [1, 0, 2] := by
      simp [ND.dematricize, ND.dim, hB, List.range']
    have hs : (B.reshape [m, r, t]).shape = [m, r, t] := rfl
    have h : InR (B.reshape [m, r, t]).shape [y, x, z] := ⟨hy, hx, hz, trivial⟩
    have := ND.transpose_get_perm (A := B.reshape [m, r, t]) (perm := [1, 0, 2])
      (by simp [ND.ndim]; intro a ha; interval_cases a <;> simp) (by simp [ND.ndim]) h
    rw [e]
    refine (Eq.trans (by simp) this).trans ?_
    exact ND.reshape_split23 hB y x z hz
  · rw [ND.oob2 hB (by tauto), ND.oob3 (demat1_shape hB) (by tauto)]

/-- Changing one core by a matrix acting on its mode. -/
theorem ttVal_modeMul (G : ℕ → ℕ → ℝ) (n : ℕ) : ∀ {Cs : List (ND ℝ)} {r s mu : ℕ} {C C' : ND ℝ},
    TTChain r Cs s → Cs[mu]? = some C → C.dim 1 = n →
    C'.shape = C.shape → (∀ x y z, x < C.dim 0 → y < n → z < C.dim 2 → C'.get [x, y, z] = ∑ t ∈ range n, G y t * C.get [x, t, z]) →
    TTChain r (Cs.set mu C') s ∧ coreShape (Cs.set mu C') = coreShape Cs ∧
    ∀ (i : List ℕ) (a b : ℕ), i.length = Cs.length → a < r → i.getD mu 0 < n →
      ttVal (Cs.set mu C') i a b = ∑ t ∈ range n, G (i.getD mu 0) t * ttVal Cs (i.set mu t) a b
  | [], _, _, mu, C, C', _, h, _, _, _ => by simp at h
  | D :: Cs, r, s, 0, C, C', ⟨n', u, hD, hCs⟩, h, hn, hs, hg => by
    have hDC : D = C := by simpa using h
    subst hDC
    have hd := dim_of_shape3 hD
    refine ⟨⟨n', u, by rw [hs, hD], hCs⟩, ?_, ?_⟩
    · simp [coreShape, ND.dim, hs]
    · intro i a b hl ha hi
      match i, hl with
      | x :: i, hl =>
        simp only [List.set_cons_zero, List.getD_cons_zero] at hi ⊢
        rw [ttVal_cons (by rw [hs, hD])]
        have e : ∀ z ∈ range u, C'.get [a, x, z] * ttVal Cs i z b
            = ∑ t ∈ range n, G x t * (D.get [a, t, z] * ttVal Cs i z b) := by
          intro z hz
          rw [hg a x z (by omega) hi (by have := mem_range.1 hz; omega), sum_mul]
          exact sum_congr rfl fun t _ => by ring
        rw [sum_congr rfl e, sum_comm]
        refine sum_congr rfl fun t _ => ?_
        rw [ttVal_cons hD, mul_sum]
  | D :: Cs, r, s, mu + 1, C, C', ⟨n', u, hD, hCs⟩, h, hn, hs, hg => by
    obtain ⟨h1, h2, h3⟩ := ttVal_modeMul G n (mu := mu) (C := C) (C' := C') hCs (by simpa using h) hn hs hg
    refine ⟨⟨n', u, hD, h1⟩, ?_, ?_⟩
    · show D.dim 1 :: coreShape (Cs.set mu C') = D.dim 1 :: coreShape Cs
      rw [h2]
    · intro i a b hl ha hi
      match i, hl with
      | x :: i, hl =>
        simp only [List.set_cons_succ, List.getD_cons_succ] at hi ⊢
        rw [ttVal_cons hD]
        have e : ∀ z ∈ range u, D.get [a, x, z] * ttVal (Cs.set mu C') i z b
            = ∑ t ∈ range n, G (i.getD mu 0) t * (D.get [a, x, z] * ttVal Cs (i.set mu t) z b) := by
          intro z hz
          rw [h3 i z b (by simpa using hl) (mem_range.1 hz) hi, mul_sum]
          exact sum_congr rfl fun t _ => by ring
        rw [sum_congr rfl e, sum_comm]
        refine sum_congr rfl fun t _ => ?_
        rw [ttVal_cons hD, mul_sum]

/-! ### Square systems -/

/-- A square matrix as a Mathlib matrix. -/
theorem qr_diag {A Q R : ND ℝ} {n : ℕ} (h : IsQR A Q R n n) :
    ((A.asMatrix n n).det ≠ 0 ↔ ∀ i < n, R.get [i, i] ≠ 0) ∧
    ∀ G : ℕ → ℕ → ℝ, IsInv G A n → (A.asMatrix n n).det ≠ 0 := by
  have hmin : min n n = n := min_self n
  obtain ⟨h1, h2, h3, h4, h5⟩ := h
  rw [hmin] at h1 h2 h3 h4 h5
  have hA : A.asMatrix n n = Q.asMatrix n n * R.asMatrix n n := by
    ext i j
    rw [Matrix.mul_apply]
    show A.get [i, j] = _
    rw [← h3 i i.2 j j.2, Finset.sum_range]
    rfl
  have hQ : (Q.asMatrix n n).transpose * Q.asMatrix n n = 1 := by
    ext i j
    rw [Matrix.mul_apply, Matrix.one_apply]
    have := h4 i i.2 j j.2
    rw [Finset.sum_range] at this
    simp only [Fin.ext_iff]
    rw [← this]
    rfl
  have hQd : (Q.asMatrix n n).det ≠ 0 := by
    intro h0
    have := congrArg Matrix.det hQ
    rw [Matrix.det_mul, h0, mul_zero, Matrix.det_one] at this
    exact zero_ne_one this
  have hR : (R.asMatrix n n).det = ∏ i : Fin n, R.get [i, i] := by
    refine Matrix.det_of_isUpperTriangular ?_
    intro i j hij
    exact h5 i i.2 j hij
  refine ⟨?_, ?_⟩
  · rw [hA, Matrix.det_mul, hR, mul_ne_zero_iff, Finset.prod_ne_zero_iff]
    constructor
    · intro h i hi
      exact h.2 ⟨i, hi⟩ (mem_univ _)
    · intro h
      exact ⟨hQd, fun i _ => h i i.2⟩
  · intro G hG h0
    have hGA : (Matrix.of fun i j : Fin n => G i j) * A.asMatrix n n = 1 := by
      ext i j
      rw [Matrix.mul_apply, Matrix.one_apply]
      have := hG i i.2 j j.2
      rw [Finset.sum_range] at this
      simp only [Fin.ext_iff]
      rw [← this]
      rfl
    have := congrArg Matrix.det hGA
    rw [Matrix.det_mul, h0, mul_zero, Matrix.det_one] at this
    exact zero_ne_one this

/-- An invertible matrix has a two-sided inverse. -/
theorem exists_inv {A : ND ℝ} {n : ℕ} (h : (A.asMatrix n n).det ≠ 0) : ∃ G : ℕ → ℕ → ℝ, IsInv G A n ∧
    ∀ i < n, ∀ j < n, ∑ t ∈ range n, A.get [i, t] * G t j = if i = j then 1 else 0 := by
  have hu : IsUnit (A.asMatrix n n).det := isUnit_iff_ne_zero.2 h
  refine ⟨fun i j => if h : i < n ∧ j < n then (A.asMatrix n n)⁻¹ ⟨i, h.1⟩ ⟨j, h.2⟩ else 0, ?_, ?_⟩
  · intro i hi j hj
    have := congrFun (congrFun (Matrix.nonsing_inv_mul _ hu) ⟨i, hi⟩) ⟨j, hj⟩
    rw [Matrix.mul_apply, Matrix.one_apply] at this
    simp only [Fin.mk.injEq] at this
    rw [← this, Finset.sum_range]
    refine sum_congr rfl fun t _ => ?_
    beta_reduce
    rw [dif_pos ⟨hi, t.2⟩]
    rfl
  · intro i hi j hj
    have := congrFun (congrFun (Matrix.mul_nonsing_inv _ hu) ⟨i, hi⟩) ⟨j, hj⟩
    rw [Matrix.mul_apply, Matrix.one_apply] at this
    simp only [Fin.mk.injEq] at this
    rw [← this, Finset.sum_range]
    refine sum_congr rfl fun t _ => ?_
    beta_reduce
    rw [dif_pos ⟨t.2, hj⟩]
    rfl

/-- A solution of `A X = B` is `G B`. -/
theorem solve_unique {A : ND ℝ} {n : ℕ} {G : ℕ → ℕ → ℝ} (hG : IsInv G A n) {x y : ℕ → ℝ}
    (h : ∀ i < n, ∑ t ∈ range n, A.get [i, t] * x t = y i) : ∀ i < n, x i = ∑ t ∈ range n, G i t * y t := by
  intro i hi
  have e : ∀ t ∈ range n, G i t * y t = ∑ u ∈ range n, G i t * A.get [t, u] * x u := by
    intro t ht
    rw [← h t (mem_range.1 ht), mul_sum]
    exact sum_congr rfl fun u _ => by ring
  rw [sum_congr rfl e, sum_comm]
  simp only [← sum_mul]
  rw [sum_eq_single i]
  · rw [hG i hi i hi, if_pos rfl, one_mul]
  · intro u hu hne
    rw [hG i hi u (mem_range.1 hu), if_neg (Ne.symm hne), zero_mul]
  · intro h; exact absurd (mem_range.2 hi) h

/-- `Q R X = Qᵀ`-projected right hand side for an orthogonal `Q`. -/
theorem qr_solve {A Q R : ND ℝ} {n : ℕ} (h : IsQR A Q R n n) (x y : ℕ → ℝ)
    (hx : ∀ i < n, ∑ t ∈ range n, R.get [i, t] * x t = ∑ s ∈ range n, Q.get [s, i] * y s) :
    ∀ i < n, ∑ t ∈ range n, A.get [i, t] * x t = y i := by
  have hmin : min n n = n := min_self n
  obtain ⟨h1, h2, h3, h4, h5⟩ := h
  rw [hmin] at h1 h2 h3 h4 h5
  have hQ : (Q.asMatrix n n).transpose * Q.asMatrix n n = 1 := by
    ext i j
    rw [Matrix.mul_apply, Matrix.one_apply]
    have := h4 i i.2 j j.2
    rw [Finset.sum_range] at this
    simp only [Fin.ext_iff]
    rw [← this]
    rfl
  have hQ' := mul_eq_one_comm.1 hQ
  have hQQ : ∀ i < n, ∀ j < n, ∑ t ∈ range n, Q.get [i, t] * Q.get [j, t] = if i = j then 1 else 0 := by
    intro i hi j hj
    have := congrFun (congrFun hQ' ⟨i, hi⟩) ⟨j, hj⟩
    rw [Matrix.mul_apply, Matrix.one_apply] at this
    simp only [Fin.mk.injEq] at this
    rw [← this, Finset.sum_range]
    rfl
  intro i hi
  calc ∑ t ∈ range n, A.get [i, t] * x t
      = ∑ t ∈ range n, ∑ u ∈ range n, Q.get [i, u] * (R.get [u, t] * x t) := by
        refine sum_congr rfl fun t ht => ?_
        rw [← h3 i hi t (mem_range.1 ht), sum_mul]
        exact sum_congr rfl fun u _ => by ring
    _ = ∑ u ∈ range n, Q.get [i, u] * ∑ s ∈ range n, Q.get [s, u] * y s := by
        rw [sum_comm]
        refine sum_congr rfl fun u hu => ?_
        rw [← mul_sum, hx u (mem_range.1 hu)]
    _ = ∑ s ∈ range n, (∑ u ∈ range n, Q.get [i, u] * Q.get [s, u]) * y s := by
        simp only [mul_sum, sum_mul]
        rw [sum_comm]
        exact sum_congr rfl fun s _ => sum_congr rfl fun u _ => by ring
    _ = y i := by
        rw [sum_eq_single i]
        · rw [hQQ i hi i hi, if_pos rfl, one_mul]
        · intro s hs hne
          rw [hQQ i hi s (mem_range.1 hs), if_neg (Ne.symm hne), zero_mul]
        · intro h; exact absurd (mem_range.2 hi) h

end TTS
