import Verif.Spec.ApproxHmt
import Verif.Spec.Nystrom
import Verif.Einsum

/-!
# Reconstruction with inexact least squares
-/

namespace TTS

open Finset

/-- What a backward stable least squares routine returns for an `m × n` matrix `A` and a right hand side `B` with `k` columns:
every column of the result is a least squares solution of a problem whose matrix and right hand side have relative distance at
most `ε` from `A` and that column of `B`.  (The perturbed problem may be another one for every column.) -/
def IsApproxLstsq (ε : ℝ) (A B X : ND ℝ) (m n k : ℕ) : Prop :=
  X.shape = [n, k] ∧ ∀ j < k, ∃ (A' : ND ℝ) (b : ℕ → ℝ), frobD A A' ≤ ε * frobN A ∧
    √ (∑ i ∈ range m, (B.get [i, j] - b i) ^ 2) ≤ ε * √ (∑ i ∈ range m, B.get [i, j] ^ 2) ∧
    ∀ x : ℕ → ℝ, ∑ i ∈ range m, (∑ t ∈ range n, A'.get [i, t] * X.get [t, j] - b i) ^ 2
      ≤ ∑ i ∈ range m, (∑ t ∈ range n, A'.get [i, t] * x t - b i) ^ 2

/-- `scipy.linalg.lstsq` up to a relative error `ε`. -/
def LstsqApproxContract (env : Env ℝ) (ε : ℝ) : Prop :=
  ∀ (A B : ND ℝ) (m n k : ℕ), A.shape = [m, n] → B.shape = [m, k] → IsApproxLstsq ε A B (env.lstsq A B) m n k

/-- The `k`-th array of a list. -/
def core (l : List (ND ℝ)) (k : ℕ) : ND ℝ := l.getD k (ND.zeros [])

/-- Residual of the computed solution `C` of `C * O = P`, where the computation was given `O'` and `P'`; `Z` is any other
candidate (whose own residual comes on top). -/
noncomputable def solveErr (ε : ℝ) (C Z O O' P P' : ND ℝ) : ℝ :=
  (frobN C + frobN Z) * (frobD O O' + ε * frobN O') + 2 * (frobD P P' + ε * frobN P')

/-- `‖L Z_k‖`: norm of the product of the left sketching matrix (`l` rows) with the `k`-th unfolding. -/
noncomputable def leftNorm (Z : ND ℝ) (L : Mats ℝ) (k l : ℕ) : ℝ :=
  √ (∑ a ∈ range l, sumIdx (Z.shape.drop k) fun q => leftSketch Z L k a q ^ 2)

/-- `A_k - (A_k R) B` as an array of the shape of `A`; `A_k R` has `r` columns. -/
def colRest (A : ND ℝ) (R : Mats ℝ) (k r : ℕ) (B : ℕ → List ℕ → ℝ) : ND ℝ :=
  ND.ofFn A.shape fun i => A.get i - ∑ b ∈ range r, rightSketch A R k (i.take k) b * B b (i.drop k)

/-- `A_k - B (L A_k)` as an array of the shape of `A`; `L` has `l` rows. -/
def rowRest (A : ND ℝ) (L : Mats ℝ) (k l : ℕ) (B : List ℕ → ℕ → ℝ) : ND ℝ :=
  ND.ofFn A.shape fun i => A.get i - ∑ a ∈ range l, B (i.take k) a * leftSketch A L k a (i.drop k)

/-- The Frobenius norm of a coefficient matrix with `l` columns and rows indexed by the first `k` modes. -/
noncomputable def rowCoeffNorm (sh : List ℕ) (k l : ℕ) (B : List ℕ → ℕ → ℝ) : ℝ :=
  √ (sumIdx (sh.take k) fun p => ∑ a ∈ range l, B p a ^ 2)

/-- Error bound for the train `C` made from the sketch `s` in direction `right`, where `t` is the exact sketch of `A`.
`B` are coefficients with `A_mu ≈ (A_mu R_mu) B_mu`, `Z` are arrays with `Z_mu Omega_mu ≈ Psi_mu`. -/
noncomputable def rightBound (ε : ℝ) (A : ND ℝ) (L R : Mats ℝ) (lr rr : List ℕ) (s t : Container ℝ) (C : List (ND ℝ))
    (B : ℕ → ℕ → List ℕ → ℝ) (Z : ℕ → ND ℝ) : ℝ :=
  (∑ mu ∈ range (A.shape.length - 1), (∏ nu ∈ range mu, frobN (core C nu))
    * ((frobD (ND.es_ijk_kl_ijl (Z mu) (core t.omega mu)) (core t.psi mu)
          + solveErr ε (core C mu) (Z mu) (core t.omega mu) (core s.omega mu) (core t.psi mu) (core s.psi mu))
        * coeffNorm A.shape (mu + 1) (rr.getD mu 0) (B mu)
      + frobN (core C mu) * leftNorm (colRest A R (mu + 1) (rr.getD mu 0) (B mu)) L (mu + 1) (lr.getD mu 0)
      + leftNorm (colRest A R (mu + 1) (rr.getD mu 0) (B mu)) L mu ((1 :: lr).getD mu 0)))
  + (∏ nu ∈ range (A.shape.length - 1), frobN (core C nu))
    * frobD (core t.psi (A.shape.length - 1)) (core s.psi (A.shape.length - 1))

/-- Error bound for the train `C` made from the sketch `s` in direction `left`.  `B` are coefficients with
`A_mu ≈ B_mu (L_mu A_mu)`, `Z` are arrays with `Omega_mu Z_mu ≈ Psi_(mu+1)`. -/
noncomputable def leftBound (ε : ℝ) (A : ND ℝ) (L R : Mats ℝ) (lr rr : List ℕ) (s t : Container ℝ) (C : List (ND ℝ))
    (B : ℕ → List ℕ → ℕ → ℝ) (Z : ℕ → ND ℝ) : ℝ :=
  (∑ mu ∈ range (A.shape.length - 1), (∏ nu ∈ Ico (mu + 2) A.shape.length, frobN (core C nu))
    * ((frobD (ND.es_ij_jkl_ikl (core t.omega mu) (Z mu)) (core t.psi (mu + 1))
          + solveErr ε (core C (mu + 1)) (Z mu) (core t.omega mu) (core s.omega mu) (core t.psi (mu + 1))
              (core s.psi (mu + 1)))
        * rowCoeffNorm A.shape (mu + 1) (lr.getD mu 0) (B mu)
      + frobN (core C (mu + 1)) * sketchedNorm (rowRest A L (mu + 1) (lr.getD mu 0) (B mu)) R (mu + 1) (rr.getD mu 0)
      + sketchedNorm (rowRest A L (mu + 1) (lr.getD mu 0) (B mu)) R (mu + 2) ((rr ++ [1]).getD (mu + 1) 0)))
  + (∏ nu ∈ Ico 1 A.shape.length, frobN (core C nu)) * frobD (core t.psi 0) (core s.psi 0)

/-- The rounding part of `rightBound`. -/
noncomputable def rightRounding (ε : ℝ) (sh rr : List ℕ) (s t : Container ℝ) (C : List (ND ℝ)) (B : ℕ → ℕ → List ℕ → ℝ)
    (Z : ℕ → ND ℝ) : ℝ :=
  (∑ mu ∈ range (sh.length - 1), (∏ nu ∈ range mu, frobN (core C nu))
    * (solveErr ε (core C mu) (Z mu) (core t.omega mu) (core s.omega mu) (core t.psi mu) (core s.psi mu)
        * coeffNorm sh (mu + 1) (rr.getD mu 0) (B mu)))
  + (∏ nu ∈ range (sh.length - 1), frobN (core C nu)) * frobD (core t.psi (sh.length - 1)) (core s.psi (sh.length - 1))

/-- The rounding part of `leftBound`. -/
noncomputable def leftRounding (ε : ℝ) (sh lr : List ℕ) (s t : Container ℝ) (C : List (ND ℝ)) (B : ℕ → List ℕ → ℕ → ℝ)
    (Z : ℕ → ND ℝ) : ℝ :=
  (∑ mu ∈ range (sh.length - 1), (∏ nu ∈ Ico (mu + 2) sh.length, frobN (core C nu))
    * (solveErr ε (core C (mu + 1)) (Z mu) (core t.omega mu) (core s.omega mu) (core t.psi (mu + 1)) (core s.psi (mu + 1))
        * rowCoeffNorm sh (mu + 1) (lr.getD mu 0) (B mu)))
  + (∏ nu ∈ Ico 1 sh.length, frobN (core C nu)) * frobD (core t.psi 0) (core s.psi 0)

end TTS
