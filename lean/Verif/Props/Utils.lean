import Verif.Model.Utils
import Verif.Proofs.Nystrom

/-!
# C74: multiplication with pseudo-inverses and projectors; C75: test tensors

`IsPinv` (the four Moore-Penrose conditions) and `MPContract` are in `Spec/Nystrom.lean`.
-/

namespace TTS.Props

open TTS Finset Matrix

/-- What is assumed of `np.linalg.pinv`: it returns the Moore-Penrose inverse. -/
def PinvOk (pinv : ND ℝ → ND ℝ) : Prop :=
  ∀ (A : ND ℝ) (m n : ℕ), A.shape = [m, n] → (pinv A).shape = [n, m] ∧ IsPinv (A.asMatrix m n) ((pinv A).asMatrix n m)

theorem asMatrix_matmul {A B : ND ℝ} {p q r : ℕ} (hA : A.shape = [p, q]) (hB : B.shape = [q, r]) :
    (A.matmul B).asMatrix p r = A.asMatrix p q * B.asMatrix q r := by
  ext i j
  rw [Matrix.mul_apply]
  refine (ND.matmul_get hA hB _ _).trans ?_
  rw [sum_range]
  rfl

theorem asMatrix_matT {A : ND ℝ} {p q : ℕ} (hA : A.shape = [p, q]) : A.matT.asMatrix q p = (A.asMatrix p q)ᵀ := by
  ext i j
  exact ND.matT_get hA i j

/-- **C74, `right_mul_pinv(A, B)`** is `A @ pinv(B)`. -/
theorem C74_right (env : Env ℝ) (hE : MPContract env) (A B : ND ℝ) (m n k : ℕ) (hA : A.shape = [m, n])
    (hB : B.shape = [k, n]) (G : Matrix (Fin n) (Fin k) ℝ) (hG : IsPinv (B.asMatrix k n) G) :
    (rightMulPinv env A B).shape = [m, k] ∧ (rightMulPinv env A B).asMatrix m k = A.asMatrix m n * G := by
  obtain ⟨H, hH, h⟩ := hE B.matT n k (ND.matT_shape hB)
  obtain ⟨h1, h2⟩ := h A.matT m (ND.matT_shape hA)
  rw [asMatrix_matT hB] at hH
  have e : H = Gᵀ := hH.unique hG.transpose
  refine ⟨ND.matT_shape h1, ?_⟩
  rw [rightMulPinv, asMatrix_matT h1, h2, asMatrix_matT hA, e, Matrix.transpose_mul, Matrix.transpose_transpose,
    Matrix.transpose_transpose]

/-- **C74, `left_mul_pinv(A, B)`** is `pinv(A) @ B`. -/
theorem C74_left (env : Env ℝ) (hE : MPContract env) (A B : ND ℝ) (m n k : ℕ) (hA : A.shape = [m, n])
    (hB : B.shape = [m, k]) (G : Matrix (Fin n) (Fin m) ℝ) (hG : IsPinv (A.asMatrix m n) G) :
    (leftMulPinv env A B).shape = [n, k] ∧ (leftMulPinv env A B).asMatrix n k = G * B.asMatrix m k := by
  obtain ⟨H, hH, h⟩ := hE A m n hA
  obtain ⟨h1, h2⟩ := h B k hB
  refine ⟨h1, ?_⟩
  rw [leftMulPinv, h2, hH.unique hG]

/-- matrices with the same rank as a multiple have the same kernel -/
theorem mul_eq_zero_of_rank {a b n : ℕ} {V : Matrix (Fin b) (Fin n) ℝ} {W : Matrix (Fin n) (Fin a) ℝ}
    (h : (V * W).rank = W.rank) {c : ℕ} {Z : Matrix (Fin a) (Fin c) ℝ} (hz : V * W * Z = 0) : W * Z = 0 := by
  have hle : LinearMap.ker W.mulVecLin ≤ LinearMap.ker (V * W).mulVecLin := by
    intro x hx
    rw [LinearMap.mem_ker, Matrix.mulVecLin_apply] at hx ⊢
    rw [← Matrix.mulVec_mulVec, hx, Matrix.mulVec_zero]
  have hk : LinearMap.ker W.mulVecLin = LinearMap.ker (V * W).mulVecLin := by
    refine Submodule.eq_of_le_of_finrank_eq hle ?_
    have h1 := LinearMap.finrank_range_add_finrank_ker W.mulVecLin
    have h2 := LinearMap.finrank_range_add_finrank_ker (V * W).mulVecLin
    have h3 : Module.finrank ℝ (LinearMap.range W.mulVecLin) = W.rank := rfl
    have h4 : Module.finrank ℝ (LinearMap.range (V * W).mulVecLin) = (V * W).rank := rfl
    omega
  ext i j
  have : Z.col j ∈ LinearMap.ker (V * W).mulVecLin := by
    rw [LinearMap.mem_ker, Matrix.mulVecLin_apply]
    funext t
    exact congrFun (congrFun hz t) j
  rw [← hk, LinearMap.mem_ker, Matrix.mulVecLin_apply] at this
  exact congrFun this i

theorem projector_matrix {pinv : ND ℝ → ND ℝ} (hp : PinvOk pinv) {X Y : ND ℝ} {n a b : ℕ} (hX : X.shape = [n, a])
    (hY : Y.shape = [n, b]) :
    ∃ P, projector pinv X (some Y) = .ok P ∧ P.shape = [n, n] ∧ ∃ G : Matrix (Fin a) (Fin b) ℝ,
      IsPinv ((Y.asMatrix n b)ᵀ * X.asMatrix n a) G ∧ P.asMatrix n n = X.asMatrix n a * G * (Y.asMatrix n b)ᵀ := by
  have hT := ND.matT_shape hY
  have hM := ND.matmul_shape' hT hX
  obtain ⟨h1, h2⟩ := hp _ b a hM
  rw [asMatrix_matmul hT hX, asMatrix_matT hY] at h2
  have h3 := ND.matmul_shape' hX h1
  have hd : ¬ (Y.dim 0 ≠ X.dim 0) := by simp [ND.dim, hX, hY]
  refine ⟨_, if_neg hd, ND.matmul_shape' h3 hT, _, h2, ?_⟩
  show (((X.matmul (pinv (Y.matT.matmul X))).matmul Y.matT).asMatrix n n) = _
  rw [asMatrix_matmul h3 hT, asMatrix_matmul hX h1, asMatrix_matT hY]

/-- **C74, `projector(X, Y)`.** It returns a projection; its range lies in the range of `X` and it vanishes on everything
orthogonal to the range of `Y`.  If `YᵀX` has the rank of `X`, the range is the range of `X`; if `YᵀX` has the rank of
`Y`, the kernel is the orthogonal complement of the range of `Y`. -/
theorem C74_projector (pinv : ND ℝ → ND ℝ) (hp : PinvOk pinv) (X Y : ND ℝ) (n a b : ℕ) (hX : X.shape = [n, a])
    (hY : Y.shape = [n, b]) :
    ∃ P, projector pinv X (some Y) = .ok P ∧ P.shape = [n, n] ∧
      P.asMatrix n n * P.asMatrix n n = P.asMatrix n n ∧
      (∃ F, P.asMatrix n n = X.asMatrix n a * F) ∧ (∃ H, P.asMatrix n n = H * (Y.asMatrix n b)ᵀ) ∧
      (((Y.asMatrix n b)ᵀ * X.asMatrix n a).rank = (X.asMatrix n a).rank → P.asMatrix n n * X.asMatrix n a = X.asMatrix n a) ∧
      (((Y.asMatrix n b)ᵀ * X.asMatrix n a).rank = (Y.asMatrix n b).rank →
        (Y.asMatrix n b)ᵀ * P.asMatrix n n = (Y.asMatrix n b)ᵀ) := by
  obtain ⟨P, h1, h2, G, hG, hP⟩ := projector_matrix hp hX hY
  refine ⟨P, h1, h2, ?_, ⟨_, hP.trans (Matrix.mul_assoc _ _ _)⟩, ⟨_, hP⟩, fun hr => ?_, fun hr => ?_⟩
  · rw [hP]
    calc X.asMatrix n a * G * (Y.asMatrix n b)ᵀ * (X.asMatrix n a * G * (Y.asMatrix n b)ᵀ)
        = X.asMatrix n a * (G * ((Y.asMatrix n b)ᵀ * X.asMatrix n a) * G) * (Y.asMatrix n b)ᵀ := by
          simp only [Matrix.mul_assoc]
      _ = _ := by rw [hG.gag]
  · have hz : (Y.asMatrix n b)ᵀ * X.asMatrix n a * (G * ((Y.asMatrix n b)ᵀ * X.asMatrix n a) - 1) = 0 := by
      rw [Matrix.mul_sub, ← Matrix.mul_assoc, hG.aga, Matrix.mul_one, sub_self]
    have := mul_eq_zero_of_rank hr hz
    rw [Matrix.mul_sub, Matrix.mul_one, sub_eq_zero] at this
    rw [hP]
    refine Eq.trans ?_ this
    simp only [Matrix.mul_assoc]
  · have hz : (X.asMatrix n a)ᵀ * Y.asMatrix n b * ((((Y.asMatrix n b)ᵀ * X.asMatrix n a) * G)ᵀ - 1) = 0 := by
      have e : (X.asMatrix n a)ᵀ * Y.asMatrix n b = ((Y.asMatrix n b)ᵀ * X.asMatrix n a)ᵀ := by
        rw [Matrix.transpose_mul, Matrix.transpose_transpose]
      rw [e, Matrix.mul_sub, ← Matrix.transpose_mul, hG.aga, Matrix.mul_one, sub_self]
    have hr' : ((X.asMatrix n a)ᵀ * Y.asMatrix n b).rank = (Y.asMatrix n b).rank := by
      rw [← hr, ← Matrix.rank_transpose, Matrix.transpose_mul, Matrix.transpose_transpose]
    have := mul_eq_zero_of_rank hr' hz
    rw [Matrix.mul_sub, Matrix.mul_one, sub_eq_zero] at this
    have := congrArg Matrix.transpose this
    rw [Matrix.transpose_mul, Matrix.transpose_transpose] at this
    rw [hP]
    refine Eq.trans ?_ this
    simp only [Matrix.mul_assoc]

/-- **C74, `projector(X)`** is the orthogonal projection onto the range of `X`: it is symmetric, it fixes the columns of
`X`, and `P v` is at least as close to `v` as any other vector `X w` of the range. -/
theorem C74_orthogonal (pinv : ND ℝ → ND ℝ) (hp : PinvOk pinv) (X : ND ℝ) (n a : ℕ) (hX : X.shape = [n, a]) :
    ∃ P, projector pinv X none = .ok P ∧ P.shape = [n, n] ∧ (P.asMatrix n n)ᵀ = P.asMatrix n n ∧
      P.asMatrix n n * P.asMatrix n n = P.asMatrix n n ∧ P.asMatrix n n * X.asMatrix n a = X.asMatrix n a ∧
      (∃ F, P.asMatrix n n = X.asMatrix n a * F) ∧
      ∀ (v : Fin n → ℝ) (w : Fin a → ℝ), ∑ i, (v i - (P.asMatrix n n *ᵥ v) i) ^ 2
        ≤ ∑ i, (v i - (X.asMatrix n a *ᵥ w) i) ^ 2 := by
  obtain ⟨P, h1, h2, h3, h4, -, h5, -⟩ := C74_projector pinv hp X X n a a hX hX
  obtain ⟨P', h1', -, G, hG, hP⟩ := projector_matrix hp hX hX
  obtain rfl : P = P' := by rw [h1] at h1'; injection h1'
  have hs : ((X.asMatrix n a)ᵀ * X.asMatrix n a)ᵀ = (X.asMatrix n a)ᵀ * X.asMatrix n a := by
    rw [Matrix.transpose_mul, Matrix.transpose_transpose]
  have hGs : Gᵀ = G := by
    have := hG.transpose
    rw [hs] at this
    exact this.unique hG
  have hsym : (P.asMatrix n n)ᵀ = P.asMatrix n n := by
    rw [hP, Matrix.transpose_mul, Matrix.transpose_mul, Matrix.transpose_transpose, hGs, Matrix.mul_assoc]
  have hfix := h5 (Matrix.rank_transpose_mul_self _)
  refine ⟨P, h1, h2, hsym, h3, hfix, h4, fun v w => ?_⟩
  -- Pythagoras
  have hort : (v - P.asMatrix n n *ᵥ v) ⬝ᵥ (P.asMatrix n n *ᵥ v - X.asMatrix n a *ᵥ w) = 0 := by
    have e : P.asMatrix n n *ᵥ v - X.asMatrix n a *ᵥ w = P.asMatrix n n *ᵥ (v - X.asMatrix n a *ᵥ w) := by
      rw [Matrix.mulVec_sub, Matrix.mulVec_mulVec, hfix]
    rw [e, Matrix.dotProduct_mulVec, ← Matrix.mulVec_transpose, hsym, Matrix.mulVec_sub, Matrix.mulVec_mulVec, h3, sub_self,
      zero_dotProduct]
  have key : ∑ i, (v i - (X.asMatrix n a *ᵥ w) i) ^ 2 = ∑ i, (v i - (P.asMatrix n n *ᵥ v) i) ^ 2
      + ∑ i, ((P.asMatrix n n *ᵥ v) i - (X.asMatrix n a *ᵥ w) i) ^ 2 := by
    have h0 : ∑ i, (v i - (P.asMatrix n n *ᵥ v) i) * ((P.asMatrix n n *ᵥ v) i - (X.asMatrix n a *ᵥ w) i) = 0 := hort
    rw [← sum_add_distrib]
    have : ∑ i, (v i - (X.asMatrix n a *ᵥ w) i) ^ 2 = ∑ i, ((v i - (P.asMatrix n n *ᵥ v) i) ^ 2
        + ((P.asMatrix n n *ᵥ v) i - (X.asMatrix n a *ᵥ w) i) ^ 2)
        + 2 * ∑ i, (v i - (P.asMatrix n n *ᵥ v) i) * ((P.asMatrix n n *ᵥ v) i - (X.asMatrix n a *ᵥ w) i) := by
      rw [mul_sum, ← sum_add_distrib]
      exact sum_congr rfl fun i _ => by ring
    rw [this, h0, mul_zero, add_zero]
  rw [key]
  exact le_add_of_nonneg_right (sum_nonneg fun i _ => sq_nonneg _)

/-- **C74, mismatch.** Matrices with different numbers of rows are rejected. -/
theorem C74_mismatch (pinv : ND ℝ → ND ℝ) (X Y : ND ℝ) (h : Y.dim 0 ≠ X.dim 0) :
    projector pinv X (some Y) = .error .valueError := if_pos h

/-- a Moore-Penrose inverse for every matrix -/
noncomputable def pinvChoice (A : ND ℝ) : ND ℝ :=
  ND.ofFn [A.dim 1, A.dim 0] fun tj =>
    if h : tj.getD 0 0 < A.dim 1 ∧ tj.getD 1 0 < A.dim 0 then
      (exists_pinv (A.asMatrix (A.dim 0) (A.dim 1))).choose ⟨tj.getD 0 0, h.1⟩ ⟨tj.getD 1 0, h.2⟩
    else 0

theorem pinvChoice_ok : PinvOk pinvChoice := by
  intro A m n hA
  have hA0 : A.dim 0 = m := by simp [ND.dim, hA]
  have hA1 : A.dim 1 = n := by simp [ND.dim, hA]
  subst hA0 hA1
  refine ⟨rfl, ?_⟩
  convert (exists_pinv (A.asMatrix (A.dim 0) (A.dim 1))).choose_spec using 1
  ext i j
  have : InR [A.dim 1, A.dim 0] [(i : ℕ), (j : ℕ)] := by simp
  refine (ND.ofFn_get this).trans ?_
  exact dif_pos (c := (i : ℕ) < A.dim 1 ∧ (j : ℕ) < A.dim 0) ⟨i.2, j.2⟩

/-- the two columns of a `3 × 2` matrix of rank one, projected -/
example : ∃ P, projector pinvChoice (ND.ofFn [3, 2] fun i => (i.getD 0 0 : ℝ)) none = .ok P ∧ P.shape = [3, 3] := by
  obtain ⟨P, h1, h2, -⟩ := C74_orthogonal pinvChoice pinvChoice_ok (ND.ofFn [3, 2] fun i => (i.getD 0 0 : ℝ)) 3 2 rfl
  exact ⟨P, h1, h2⟩

end TTS.Props
