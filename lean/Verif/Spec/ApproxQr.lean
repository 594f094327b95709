import Verif.Spec.ApproxSvd

/-!
# Inexact QR factorisations
-/

namespace TTS

open Finset

/-- What a backward stable routine (such as Householder QR) returns for an `m × n` matrix `M`: the computed `R` is the factor of
a matrix `M'` with relative distance at most `ε` from `M`, and the computed `Q` is at distance at most `ε` from the orthonormal
factor of `M'`. -/
def IsApproxQR (ε : ℝ) (M Q R : ND ℝ) (m n : ℕ) : Prop :=
  Q.shape = [m, min m n] ∧ ∃ M' Q' : ND ℝ, M'.shape = [m, n] ∧ IsQR M' Q' R m n ∧ frobD M M' ≤ ε * frobN M ∧ frobD Q Q' ≤ ε

/-- `scipy.linalg.qr(M, mode="economic")` up to a relative error `ε`. -/
def LinAlg.QRApprox (la : LinAlg) (ε : ℝ) : Prop :=
  ∀ (M : ND ℝ) (m n : ℕ), M.shape = [m, n] → IsApproxQR ε M (la.qr M).1 (la.qr M).2 m n

/-- `scipy.linalg.svd(M)` up to a relative error `ε`. -/
def LinAlg.SVDApprox (la : LinAlg) (ε : ℝ) : Prop :=
  ∀ (M : ND ℝ) (m n : ℕ), M.shape = [m, n] →
    IsApproxSVD ε M (la.svd M).1 (la.svd M).2.1 (la.svd M).2.2 m n m n

/-- The inner products of the rows of the right unfolding of a core differ from those of an orthonormal family by at most
`δ`. -/
def ND.NearRightOrthogonal (C : ND ℝ) (δ : ℝ) : Prop :=
  ∀ s < C.dim 0, ∀ t < C.dim 0,
    |∑ j ∈ range (C.dim 1), ∑ k ∈ range (C.dim 2), C.get [s, j, k] * C.get [t, j, k] - if s = t then 1 else 0| ≤ δ

/-- The product of the Frobenius norms of the cores of a tensor train. -/
noncomputable def TT.coreNorms (X : TT ℝ) : ℝ := (X.cores.map frobN).prod

end TTS
