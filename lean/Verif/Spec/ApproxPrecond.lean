import Verif.Spec.ApproxQr
import Verif.Spec.MPO
import Verif.Spec.Gmres

/-!
# Inexact triangular solves
-/

namespace TTS

open Finset

/-- `scipy.linalg.solve_triangular(R, B)` up to a relative error `η`, as for substitution in floating point: each column of the
result solves a system whose matrix has relative distance at most `η` from `R`.  A zero on the diagonal is detected. -/
def LinAlg2.SolveTriApprox (la : LinAlg2) (η : ℝ) : Prop :=
  ∀ (R B : ND ℝ) (n k : ℕ), R.shape = [n, n] → B.shape = [n, k] → 0 < k → (∀ t < n, ∀ j < t, R.get [t, j] = 0) →
    ((∀ i < n, R.get [i, i] ≠ 0) → ∃ X, la.solveTri R B = .ok X ∧ X.shape = [n, k] ∧
      ∀ j < k, ∃ R' : ND ℝ, frobD R R' ≤ η * frobN R ∧
        ∀ i < n, ∑ t ∈ range n, R'.get [i, t] * X.get [t, j] = B.get [i, j]) ∧
    ((∃ i < n, R.get [i, i] = 0) → la.solveTri R B = .error .linAlgError)

end TTS
