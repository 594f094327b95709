import Verif.Model.FloatOrth

/-!
# `TensorTrain.error` with its options in floating point arithmetic
-/

namespace TTS

open Classical in
/-- `tensor.py` 600-606: the options `relative` and `rmse` applied to the number `e`; the divisions, the conversion of the number
of entries to a float and its square root are rounded.  The product `np.prod(self.shape)` is exact (no integer overflow). -/
def FlErrorOpts (u : ℝ) (shape : List ℕ) (relative rmse : Bool) (n e : ℝ) (f : PyFloat) : Prop :=
  if relative = true ∧ n = 0 then f = .inf
  else ∃ δ δ1 δ2 δ3 : ℝ, |δ| ≤ u ∧ |δ1| ≤ u ∧ |δ2| ≤ u ∧ |δ3| ≤ u ∧
    ∃ e', e' = (if relative then e / n * (1 + δ) else e) ∧
      if rmse then
        ∃ s, s = √ ((shape.prod : ℝ) * (1 + δ1)) * (1 + δ2) ∧
          f = if s = 0 then (PyFloat.val e').div 0 else .val (e' / s * (1 + δ3))
      else f = .val e'

/-- `tensor.py` 598-607: `X.error(Y, relative, rmse)` for tensor trains; `res` is a possible result or error. -/
def TT.FlErrorWith (u : ℝ) (la : LinAlg) (X Y : TT ℝ) (relative rmse : Bool) (res : Except PyErr PyFloat) : Prop :=
  ∃ err, X.FlError u la Y err ∧
    match err with
    | .error e => res = .error e
    | .ok v =>
      if relative then
        ∃ nrm, Y.FlNorm u la nrm ∧
          match nrm with
          | .error e => res = .error e
          | .ok n => ∃ f, FlErrorOpts u X.shape true rmse n v f ∧ res = .ok f
      else ∃ f, FlErrorOpts u X.shape false rmse 0 v f ∧ res = .ok f

end TTS
