import Verif.Model.Sketch
import Verif.Spec.Tensor
import Mathlib.LinearAlgebra.Matrix.Rank

/-!
# Contracts of the external linear algebra routines, and ranks of unfoldings
-/

namespace TTS

open Finset

variable {K : Type*}

/-- What the theorems assume about `scipy.linalg.lstsq(A, B)[0]`: the result has the right shape, and every column
that can be solved exactly is solved exactly.  (A least squares solution minimises the residual, so it is exact
whenever the residual can be zero.) -/
def LstsqContract [CommRing K] (env : Env K) : Prop :=
  ∀ (A B : ND K) (m n k : ℕ), A.shape = [m, n] → B.shape = [m, k] →
    (env.lstsq A B).shape = [n, k] ∧
    ∀ j < k, (∃ x : ℕ → K, ∀ i < m, ∑ t ∈ range n, A.get [i, t] * x t = B.get [i, j]) →
      ∀ i < m, ∑ t ∈ range n, A.get [i, t] * (env.lstsq A B).get [t, j] = B.get [i, j]

/-- What `C47` and later theorems assume about `scipy.linalg.lstsq(A, B)[0]`: it is the product of `B` with a matrix
that depends on `A` only (the pseudo-inverse), and that matrix is a generalised inverse of `A`.  (Implies
`LstsqContract`.) -/
def PinvContract [CommRing K] (env : Env K) : Prop :=
  ∀ (A : ND K) (m n : ℕ), A.shape = [m, n] → ∃ G : ℕ → ℕ → K,
    (∀ i < m, ∀ j < n, ∑ t ∈ range n, ∑ s ∈ range m, A.get [i, t] * G t s * A.get [s, j] = A.get [i, j]) ∧
    ∀ (B : ND K) (k : ℕ), B.shape = [m, k] → (env.lstsq A B).shape = [n, k] ∧
      ∀ t < n, ∀ j < k, (env.lstsq A B).get [t, j] = ∑ s ∈ range m, G t s * B.get [s, j]

/-- Economic QR factorisation of an `m × n` matrix, with `s = min m n`: `Q` is `m × s` with orthonormal columns, `R`
is `s × n` and upper triangular, and `Q R` is the matrix. -/
structure IsQR [CommRing K] (M Q R : ND K) (m n : ℕ) : Prop where
  shapeQ : Q.shape = [m, min m n]
  shapeR : R.shape = [min m n, n]
  mul : ∀ i < m, ∀ j < n, ∑ t ∈ range (min m n), Q.get [i, t] * R.get [t, j] = M.get [i, j]
  orth : ∀ s < min m n, ∀ t < min m n, ∑ i ∈ range m, Q.get [i, s] * Q.get [i, t] = if s = t then 1 else 0
  upper : ∀ t < min m n, ∀ j < t, R.get [t, j] = 0

/-- What the theorems assume about `scipy.linalg.qr(M, mode="economic")`. -/
def QRContract [CommRing K] (env : Env K) : Prop :=
  ∀ (M : ND K) (m n : ℕ), M.shape = [m, n] → IsQR M (env.qr M).1 (env.qr M).2 m n

/-- A two-axis array as a matrix. -/
def ND.asMatrix [Zero K] (A : ND K) (m n : ℕ) : Matrix (Fin m) (Fin n) K := fun i j => A.get [i, j]

/-- The unfolding of an array whose rows are indexed by the first `k` modes and whose columns by the others (both
row-major). -/
def ND.unfolding [Zero K] (A : ND K) (k : ℕ) :
    Matrix (Fin (A.shape.take k).prod) (Fin (A.shape.drop k).prod) K :=
  fun i j => A.get (unravel (A.shape.take k) i ++ unravel (A.shape.drop k) j)

/-- A core `C` of shape `(r, n, s)` is left-orthogonal: the `(r n) × s` matrix has orthonormal columns. -/
def ND.LeftOrthogonal [CommRing K] (C : ND K) : Prop :=
  ∀ s < C.dim 2, ∀ t < C.dim 2, ∑ a ∈ range (C.dim 0), ∑ j ∈ range (C.dim 1), C.get [a, j, s] * C.get [a, j, t]
    = if s = t then 1 else 0

end TTS
