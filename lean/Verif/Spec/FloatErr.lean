import Verif.Spec.FloatLin
import Verif.Spec.ApproxQr
import Verif.Model.FloatErr

/-!
# Error bounds for `TensorTrain.error` in floating point arithmetic
-/

namespace TTS

/-- The bound of C104_norm on the error of the computed norm. -/
noncomputable def normFloatBound (u ρ : ℝ) (X : TT ℝ) : ℝ :=
  flErr u (X.rank.getLastD 1 * X.shape.getLastD 0 + 1) * frobN X.toNumpy
    + (1 + u) ^ (X.rank.getLastD 1 * X.shape.getLastD 0 + 1)
      * ((X.shape.length - 1 : ℕ) * ρ * (1 + ρ) ^ (X.shape.length - 1) * X.coreNorms)

/-- The bound of C104_error on the error of the computed distance. -/
noncomputable def errorFloatBound (u ρ : ℝ) (X Y : TT ℝ) : ℝ :=
  flErr u ((X.rank.getLastD 1 + Y.rank.getLastD 1) * X.shape.getLastD 0 + 1) * frobD X.toNumpy Y.toNumpy
    + (1 + u) ^ ((X.rank.getLastD 1 + Y.rank.getLastD 1) * X.shape.getLastD 0 + 1)
      * (u * √ (sumIdx X.shape fun i => (ttEntry X.abs i + ttEntry Y.abs i) ^ 2)
        + (X.shape.length - 1 : ℕ) * ρ * (1 + ρ) ^ (X.shape.length - 1) * ((1 + u) * (X.abs.add (Y.abs.mul 1)).coreNorms))

/-- The exact value of `X.error(Y, relative, rmse)`: the distance, divided by the norm of `Y` and by the root of the number of
entries if the options say so. -/
noncomputable def trueError (X Y : TT ℝ) (relative rmse : Bool) : ℝ :=
  frobD X.toNumpy Y.toNumpy / (if relative then frobN Y.toNumpy else 1) / (if rmse then √ (X.shape.prod : ℝ) else 1)

/-- Bound on the error of the (possibly relative) error: `B` bounds the error of the distance `D`, `N` that of the norm `F`. -/
noncomputable def quotBound (u D F B N : ℝ) : ℝ := u * (D / F) + (1 + u) * ((B + D / F * N) / (F - N))

/-- Bound on the error of `e / √p` when `e` is known up to `b`. -/
noncomputable def rmseBound (u E b p : ℝ) : ℝ := (((1 + u) / (1 - u) ^ 2 - 1) * E + (1 + u) / (1 - u) ^ 2 * b) / √ p

/-- The bound of C110 on the error of `X.error(Y, relative, rmse)`. -/
noncomputable def errorWithBound (u ρ : ℝ) (X Y : TT ℝ) (relative rmse : Bool) : ℝ :=
  let b := if relative then quotBound u (frobD X.toNumpy Y.toNumpy) (frobN Y.toNumpy) (errorFloatBound u ρ X Y) (normFloatBound u ρ Y)
    else errorFloatBound u ρ X Y
  if rmse then rmseBound u (trueError X Y relative false) b X.shape.prod else b

end TTS
