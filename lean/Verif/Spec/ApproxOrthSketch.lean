import Verif.Spec.ApproxStream

/-!
# `orthogonal_sketch` with inexact QR factorisations and inexact least squares
-/

namespace TTS

open Finset

/-- Entry `(a, b)` of `L A_k R`. -/
def midSketch (A : ND ℝ) (L R : Mats ℝ) (k a b : ℕ) : ℝ :=
  sumIdx (A.shape.take k) fun p => L k p a * rightSketch A R k p b

/-- `‖L A_k R‖` (`l` rows, `r` columns). -/
noncomputable def midNorm (A : ND ℝ) (L R : Mats ℝ) (k l r : ℕ) : ℝ :=
  √ (∑ a ∈ range l, ∑ b ∈ range r, midSketch A L R k a b ^ 2)

/-- `‖A_k R - H (L A_k R)‖`, where `H` has `l` columns and rows indexed by the first `k` modes. -/
noncomputable def fitErr (A : ND ℝ) (L R : Mats ℝ) (k l r : ℕ) (H : List ℕ → ℕ → ℝ) : ℝ :=
  √ (sumIdx (A.shape.take k) fun p => ∑ b ∈ range r,
    (rightSketch A R k p b - ∑ c ∈ range l, H p c * midSketch A L R k c b) ^ 2)

/-- The contribution of bond number `k` to the error of `orthogonal_sketch`: `N` is the number of bonds, `B` and `H` are
coefficients with `A_k ≈ (A_k R) B` and `A_k R ≈ H (L A_k R)`, and `c` is the norm of the solution computed at this bond. -/
noncomputable def orthBond (ε : ℝ) (A : ND ℝ) (L R : Mats ℝ) (N k l r : ℕ) (B : ℕ → List ℕ → ℝ) (H : List ℕ → ℕ → ℝ)
    (c : ℝ) : ℝ :=
  ((1 + ε) ^ N * ((N + 1) * ε * sketchedNorm A R k r + fitErr A L R k l r H
      + ε * midNorm A L R k l r * rowCoeffNorm A.shape k l H)
    + 2 * ε * midNorm A L R k l r * c) * coeffNorm A.shape k r B

/-- The error bound of `orthogonal_sketch`. -/
noncomputable def orthBound (ε : ℝ) (A : ND ℝ) (L R : Mats ℝ) (lr rr : List ℕ) (B : ℕ → ℕ → List ℕ → ℝ)
    (H : ℕ → List ℕ → ℕ → ℝ) (c : ℕ → ℝ) : ℝ :=
  √ (∑ mu ∈ range (A.shape.length - 1), rangeErrSq A R (mu + 1) (rr.getD mu 0) (B mu))
    + √ (∑ mu ∈ range (A.shape.length - 1),
        orthBond ε A L R (A.shape.length - 1) (mu + 1) (lr.getD mu 0) (rr.getD mu 0) (B mu) (H mu) (c mu) ^ 2)
    + 2 * (A.shape.length - 1 : ℕ) * ε * (1 + ε) ^ (2 * (A.shape.length - 1)) * frobN A

/-- The array that `orth_step` passes to the QR factorisation: the computed solution of `C * O = P`. -/
def solution (env : Env ℝ) (P O : ND ℝ) : ND ℝ :=
  ((env.lstsq O.matT (P.reshape [P.dim 0 * P.dim 1, P.dim 2]).matT).matT).reshape [P.dim 0, P.dim 1, O.dim 0]

/-- The left matrices given by the cores of a tensor train. -/
def frameMats (Y : TT ℝ) : Mats ℝ := fun k p a => if k = 0 then 1 else ttVal (Y.cores.take k) p 0 a

/-- The solution at bond `mu` of the run that returned `Y`: the matrix is `Omega[mu] = L A_mu R`, the right hand side is the
`mu`-th core of the sketch of `A` with the cores of `Y` on the left. -/
def bondSolution (env : Env ℝ) (A : ND ℝ) (L R : Mats ℝ) (lr rr : List ℕ) (Y : TT ℝ) (mu : ℕ) : ND ℝ :=
  solution env (core (sketchOf A.shape A.get (frameMats Y) R lr rr).psi mu) (core (sketchOf A.shape A.get L R lr rr).omega mu)

end TTS
