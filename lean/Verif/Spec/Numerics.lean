import Verif.Model.Numerics
import Verif.Spec.Contract

/-!
# Contracts of the factorisations, and what accuracy means
-/

namespace TTS

open Finset

/-- What the theorems assume about `np.linalg.qr(M)`: an economic QR factorisation. -/
def LinAlg.QROk (la : LinAlg) : Prop :=
  ∀ (M : ND ℝ) (m n : ℕ), M.shape = [m, n] → IsQR M (la.qr M).1 (la.qr M).2 m n

/-- Singular value decomposition of an `m × n` matrix with `u` left and `v` right singular vectors: orthonormal
columns of `U`, orthonormal rows of `V`, nonnegative singular values in decreasing order. -/
structure IsSVD (M U : ND ℝ) (S : List ℝ) (V : ND ℝ) (m n u v : ℕ) : Prop where
  shapeU : U.shape = [m, u]
  shapeV : V.shape = [v, n]
  length : S.length = min m n
  mul : ∀ i < m, ∀ j < n, ∑ t ∈ range (min m n), U.get [i, t] * S.getD t 0 * V.get [t, j] = M.get [i, j]
  orthU : ∀ s < u, ∀ t < u, ∑ i ∈ range m, U.get [i, s] * U.get [i, t] = if s = t then 1 else 0
  orthV : ∀ s < v, ∀ t < v, ∑ j ∈ range n, V.get [s, j] * V.get [t, j] = if s = t then 1 else 0
  nonneg : ∀ t, 0 ≤ S.getD t 0
  antitone : ∀ s t, s ≤ t → S.getD t 0 ≤ S.getD s 0

/-- What the theorems assume about `np.linalg.svd(M)`. -/
def LinAlg.SVDOk (la : LinAlg) : Prop :=
  ∀ (M : ND ℝ) (m n : ℕ), M.shape = [m, n] → IsSVD M (la.svd M).1 (la.svd M).2.1 (la.svd M).2.2 m n m n

/-- What the theorems assume about `np.linalg.svd(M, full_matrices=False)`. -/
def LinAlg.SVDThinOk (la : LinAlg) : Prop :=
  ∀ (M : ND ℝ) (m n : ℕ), M.shape = [m, n] →
    IsSVD M (la.svdThin M).1 (la.svdThin M).2.1 (la.svdThin M).2.2 m n (min m n) (min m n)

/-- A core `C` of shape `(r, n, s)` is right-orthogonal: the `r × (n s)` matrix has orthonormal rows. -/
def ND.RightOrthogonal (C : ND ℝ) : Prop :=
  ∀ s < C.dim 0, ∀ t < C.dim 0, ∑ j ∈ range (C.dim 1), ∑ b ∈ range (C.dim 2), C.get [s, j, b] * C.get [t, j, b]
    = if s = t then 1 else 0

/-- Sum of the squares of the entries of an array. -/
def normSq (A : ND ℝ) : ℝ := sumIdx A.shape fun i => A.get i ^ 2

/-- Sum of the squared differences of the entries of two arrays of the same shape. -/
def distSq (A B : ND ℝ) : ℝ := sumIdx A.shape fun i => (A.get i - B.get i) ^ 2

/-- A tensor train all of whose mode sizes and ranks are positive. -/
def TT.Pos (X : TT ℝ) : Prop := (∀ n ∈ X.shape, 0 < n) ∧ ∀ r ∈ X.rank, 0 < r

/-- The ranks a user asks for: an integer means the same rank on every bond. -/
def askedRanks (shape : List ℕ) : RankArg → List ℕ
  | .int r => List.replicate (shape.length - 1) r
  | .seq rs => rs

end TTS
