import Verif.Spec.ApproxOrthSketch
import Verif.Spec.Gmres

/-!
# Rounding and solving with inexact linear algebra
-/

namespace TTS

open Finset

/-- What the rounding methods need of the external routines, up to a relative error `ε`. -/
structure RoundApprox (env : Env ℝ) (la : LinAlg) (ε : ℝ) : Prop where
  nonneg : 0 ≤ ε
  qr : la.QRApprox ε
  svd : la.SVDApprox ε
  lstsq : LstsqApproxContract env ε
  qrE : QRApproxContract env ε

/-- The error bound of `round` with inexact routines for a train with `N + 1` modes, norm `x` and core norms `c`: `z` is the
distance to a competitor, `t` the total of the (trimmed) maximal ranks, `e` the tolerance. -/
noncomputable def roundBound (ε : ℝ) (N : ℕ) (e t z x c : ℝ) : ℝ :=
  √ (N * z ^ 2 + t * (e * ((1 + ε) ^ (4 * N) * x)) ^ 2)
    + N * (6 + 4 * √ (N : ℝ) + e * √ t) * ε * (1 + ε) ^ (5 * N) * c

/-- Euclidean norm of a vector. -/
noncomputable def listNorm (v : List ℝ) : ℝ := √ (∑ i ∈ range v.length, v.getD i 0 ^ 2)

/-- `y, residuals, _, _ = np.linalg.lstsq(H, e, rcond=None)` up to a relative error `η`: `y` is a least squares solution of a
system at relative distance at most `η`, and `residuals`, if not empty, holds a squared residual that is accurate relative to
the size of the terms. -/
def LinAlg2.LstsqApprox (la : LinAlg2) (η : ℝ) : Prop :=
  ∀ (H : ND ℝ) (e : List ℝ) (m n : ℕ), H.shape = [m, n] → e.length = m → n < m →
    (la.lstsq H e).1.length = n ∧
    (∃ (H' : ND ℝ) (e' : List ℝ), H'.shape = [m, n] ∧ frobD H H' ≤ η * frobN H ∧
      √ (∑ i ∈ range m, (e.getD i 0 - e'.getD i 0) ^ 2) ≤ η * listNorm e ∧
      ∀ z, residSq H' e' m n (fun t => (la.lstsq H e).1.getD t 0) ≤ residSq H' e' m n z) ∧
    ∀ r ∈ (la.lstsq H e).2, 0 ≤ r ∧ |√ r - √ (residSq H e m n fun t => (la.lstsq H e).1.getD t 0)|
      ≤ η * (frobN H * listNorm (la.lstsq H e).1 + listNorm e)

/-- What the solver needs of the external routines, up to relative errors: `ε` for the roundings, `η` for the reduced systems. -/
structure GmresApprox (env : ℕ → Env ℝ) (la : LinAlg2) (ε η : ℝ) : Prop where
  round : ∀ k, RoundApprox (env k) la.toLinAlg ε
  lstsq : la.LstsqApprox η

/-- No preconditioner is involved. -/
structure GmresArgs.Plain (a : GmresArgs) : Prop where
  precond : a.precond = none
  maps : ∀ P, LinMap.precond P ∉ a.A.maps

/-- What the `i`-th rounded vector was divided by: its computed norm. -/
def GmresOut.scale (out : GmresOut) (i : ℕ) : ℝ := if i = 0 then out.beta else out.H.get [i, i - 1]

/-- The `i`-th basis vector, before it is normalised. -/
def GmresOut.raw (out : GmresOut) (i : ℕ) : TT ℝ := (out.calls.getD (2 * i) noCall).result

/-- The `i`-th basis vector. -/
noncomputable def GmresOut.basis (out : GmresOut) (i : ℕ) : TT ℝ := (out.raw i).mul (1 / out.scale i)

end TTS
