import Verif.Spec.ApproxOrthSketch
import Verif.Spec.FloatSketch

/-!
# Rounding errors of `hmt_sketch` and `orthogonal_sketch`
-/

namespace TTS

open Finset

/-- How large the Psi core `mu` can be: the norm of the unfolding of `A` behind mode `mu` times the first `r` columns of
`R (mu + 1)` (`sketchedNorm`), times the Frobenius norms of the cores in front of it. -/
noncomputable def psiSize (A : ND ℝ) (R : Mats ℝ) (cores : List (ND ℝ)) (mu r : ℕ) : ℝ :=
  (∏ nu ∈ range mu, frobN (cores.getD nu (ND.zeros []))) * sketchedNorm A R (mu + 1) r

/-- The bound on the rounding error of the Psi core `mu` for the DRM `D`, of which `R` lists the matrices: the error `flErr u n`
of `n` operations in a row, `n` the number of operations behind an entry of that core, times the size of the core, for the
absolute values of the tensor and of the DRM; `lr` are the ranks of the cores. -/
noncomputable def psiError (u : ℝ) (X : Tensor ℝ) (lr : List ℕ) (D : DRM ℝ) (R : Mats ℝ) (cores : List (ND ℝ)) (mu : ℕ) : ℝ :=
  flErr u (X.psiTotal (orthDRM lr X.shape []) D mu)
    * psiSize X.abs.toNumpy R cores mu ((D.rank.reverse ++ [1]).getD mu 0)

/-- The rounding part of the error of `hmt_sketch`: `N` QR factorisations with error `ε`, Psi cores with errors `E`,
coefficients `B`.  With `E = 0` it is at most `hmtRounding`. -/
noncomputable def hmtFloatRounding (A : ND ℝ) (R : Mats ℝ) (ranks : List ℕ) (ε : ℝ) (E : ℕ → ℝ) (B : ℕ → ℕ → List ℕ → ℝ) : ℝ :=
  √ (∑ mu ∈ range (A.shape.length - 1),
      (((A.shape.length - 1 : ℕ) * ε * (1 + ε) ^ (A.shape.length - 1) * sketchedNorm A R (mu + 1) (ranks.getD mu 0)
        + (1 + ε) * E mu) * coeffNorm A.shape (mu + 1) (ranks.getD mu 0) (B mu)) ^ 2)
    + 2 * (A.shape.length - 1 : ℕ) * ε * (1 + ε) ^ (2 * (A.shape.length - 1)) * frobN A
    + (1 + (A.shape.length - 1 : ℕ) * ε * (1 + ε) ^ (A.shape.length - 1)) * E (A.shape.length - 1)

/-- The bound on the rounding error of `Omega[mu]` for the DRMs `l`, `r`, of which `L`, `R` list the matrices. -/
noncomputable def omegaError (u : ℝ) (X : Tensor ℝ) (l r : DRM ℝ) (L R : Mats ℝ) (mu : ℕ) : ℝ :=
  flErr u (X.omegaTotal l r mu) * midNorm X.abs.toNumpy L R (mu + 1) (l.rank.getD mu 0) (r.rank.reverse.getD mu 0)

/-- `orthBond` when `Omega[mu]` has the error `eO` and the Psi core the error `eP`. -/
noncomputable def orthFloatBond (ε : ℝ) (A : ND ℝ) (L R : Mats ℝ) (N k l r : ℕ) (B : ℕ → List ℕ → ℝ) (H : List ℕ → ℕ → ℝ)
    (c eO eP : ℝ) : ℝ :=
  ((1 + ε) ^ N * ((N + 1) * ε * sketchedNorm A R k r + fitErr A L R k l r H
      + (ε * midNorm A L R k l r + (1 + ε) * eO) * rowCoeffNorm A.shape k l H)
    + (2 * ε * midNorm A L R k l r + (1 + ε) * eO) * c + 2 * (1 + ε) * eP) * coeffNorm A.shape k r B

/-- The error bound of `orthogonal_sketch`, when `Omega[mu]` has the error `eO mu` and the Psi core `mu` the error `eP mu`;
`c mu` is the norm of the least squares solution at bond `mu`. -/
noncomputable def orthFloatBound (ε : ℝ) (A : ND ℝ) (L R : Mats ℝ) (lr rr : List ℕ) (eO eP : ℕ → ℝ)
    (B : ℕ → ℕ → List ℕ → ℝ) (H : ℕ → List ℕ → ℕ → ℝ) (c : ℕ → ℝ) : ℝ :=
  √ (∑ mu ∈ range (A.shape.length - 1), rangeErrSq A R (mu + 1) (rr.getD mu 0) (B mu))
    + √ (∑ mu ∈ range (A.shape.length - 1), orthFloatBond ε A L R (A.shape.length - 1) (mu + 1) (lr.getD mu 0)
        (rr.getD mu 0) (B mu) (H mu) (c mu) (eO mu) (eP mu) ^ 2)
    + 2 * (A.shape.length - 1 : ℕ) * ε * (1 + ε) ^ (2 * (A.shape.length - 1)) * frobN A
    + (1 + (A.shape.length - 1 : ℕ) * ε * (1 + ε) ^ (A.shape.length - 1)) * eP (A.shape.length - 1)

/-- A bound on `psiError` that does not depend on the run: cores orthogonal up to `2ε + ε²` have norm at most `(1+ε)√r`. -/
noncomputable def psiErrorBound (u ε : ℝ) (X : Tensor ℝ) (lr : List ℕ) (D : DRM ℝ) (R : Mats ℝ) (mu : ℕ) : ℝ :=
  flErr u (X.psiTotal (orthDRM lr X.shape []) D mu)
    * ((∏ nu ∈ range mu, (1 + ε) * √ (lr.getD nu 0 : ℝ))
      * sketchedNorm X.abs.toNumpy R (mu + 1) ((D.rank.reverse ++ [1]).getD mu 0))

end TTS
