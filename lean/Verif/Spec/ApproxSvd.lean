import Verif.Spec.Numerics

/-!
# Inexact singular value decompositions
-/

namespace TTS

open Finset

/-- Frobenius norm of an array. -/
noncomputable def frobN (A : ND ℝ) : ℝ := √ (normSq A)

/-- Frobenius distance of two arrays of the same shape. -/
noncomputable def frobD (A B : ND ℝ) : ℝ := √ (distSq A B)

/-- What a backward stable routine returns for an `m × n` matrix `M`: the singular values are those of a matrix `M'` with
relative distance at most `ε` from `M`, and the singular vectors are at distance at most `ε` from singular vectors of `M'`. -/
def IsApproxSVD (ε : ℝ) (M U : ND ℝ) (S : List ℝ) (V : ND ℝ) (m n u v : ℕ) : Prop :=
  U.shape = [m, u] ∧ V.shape = [v, n] ∧ ∃ M' U' V' : ND ℝ, M'.shape = [m, n] ∧ IsSVD M' U' S V' m n u v ∧
    frobD M M' ≤ ε * frobN M ∧ frobD U U' ≤ ε ∧ frobD V V' ≤ ε

/-- `np.linalg.svd(M, full_matrices=False)` up to a relative error `ε`. -/
def LinAlg.SVDThinApprox (la : LinAlg) (ε : ℝ) : Prop :=
  ∀ (M : ND ℝ) (m n : ℕ), M.shape = [m, n] →
    IsApproxSVD ε M (la.svdThin M).1 (la.svdThin M).2.1 (la.svdThin M).2.2 m n (min m n) (min m n)

/-- The inner products of the columns of the left unfolding of a core differ from those of an orthonormal family by at
most `δ`. -/
def ND.NearLeftOrthogonal (C : ND ℝ) (δ : ℝ) : Prop :=
  ∀ s < C.dim 2, ∀ t < C.dim 2,
    |∑ i ∈ range (C.dim 0), ∑ j ∈ range (C.dim 1), C.get [i, j, s] * C.get [i, j, t] - if s = t then 1 else 0| ≤ δ

end TTS
