import Verif.Spec.ApproxQr
import Verif.Spec.OrthErr

/-!
# Sketching with inexact QR factorisations
-/

namespace TTS

open Finset

/-- `scipy.linalg.qr(M, mode="economic")`, as used by the sketching methods, up to a relative error `ε`. -/
def QRApproxContract (env : Env ℝ) (ε : ℝ) : Prop :=
  ∀ (M : ND ℝ) (m n : ℕ), M.shape = [m, n] → IsApproxQR ε M (env.qr M).1 (env.qr M).2 m n

/-- `‖A_k R‖`: the Frobenius norm of the sketched `k`-th unfolding (`r` columns). -/
noncomputable def sketchedNorm (A : ND ℝ) (R : Mats ℝ) (k r : ℕ) : ℝ :=
  √ (sumIdx (A.shape.take k) fun p => ∑ b ∈ range r, rightSketch A R k p b ^ 2)

/-- `‖B‖`: the Frobenius norm of a coefficient matrix with `r` rows and columns indexed by the modes from `k` on. -/
noncomputable def coeffNorm (sh : List ℕ) (k r : ℕ) (B : ℕ → List ℕ → ℝ) : ℝ :=
  √ (∑ b ∈ range r, sumIdx (sh.drop k) fun q => B b q ^ 2)

/-- The rounding part of the error: `N` QR factorisations with error `ε`, coefficients `B`. -/
noncomputable def hmtRounding (A : ND ℝ) (R : Mats ℝ) (ranks : List ℕ) (ε : ℝ) (B : ℕ → ℕ → List ℕ → ℝ) : ℝ :=
  (A.shape.length - 1 : ℕ) * ε * (1 + ε) ^ (A.shape.length - 1) * √ (∑ mu ∈ range (A.shape.length - 1),
      (sketchedNorm A R (mu + 1) (ranks.getD mu 0) * coeffNorm A.shape (mu + 1) (ranks.getD mu 0) (B mu)) ^ 2)
    + 2 * (A.shape.length - 1 : ℕ) * ε * (1 + ε) ^ (2 * (A.shape.length - 1)) * frobN A

end TTS
