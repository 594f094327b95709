import Verif.Model.Float
import Verif.Model.Numerics
import Verif.Model.FloatLin

/-!
# `TensorTrain.orthogonalize` and `TensorTrain.norm` in floating point arithmetic

As in `Model/Numerics.lean`, with every numpy operation rounded; relations, as in `Model/Float.lean`.  `np.linalg.qr` is the
routine `la.qr`, whose result may be inexact.
-/

namespace TTS

/-- `tensor.py` 563-571: the loop of `orthogonalize` from one core on, with every contraction rounded. -/
def TT.FlOrthLoop (u : ℝ) (la : LinAlg) : Option (ND ℝ) → List (ND ℝ) → Except PyErr (List (ND ℝ)) → Prop
  | _, [], res => res = .ok []
  | R, C :: Cs, res => ∃ C' : ND ℝ,
    (match R with
      | none => C' = C
      | some R => FlEinsum u [([.i, .j], R), ([.j, .k, .l], C)] [.i, .k, .l] C') ∧
    match Cs with
    | [] => res = .ok [C']
    | D :: Ds =>
      match ND.reshapeInfer (la.qr (C'.reshape [C'.dim 0 * C'.dim 1, C'.dim 2])).1 (C'.dim 0) (C'.dim 1) with
      | .error e => res = .error e
      | .ok Q => ∃ rest, TT.FlOrthLoop u la (some (la.qr (C'.reshape [C'.dim 0 * C'.dim 1, C'.dim 2])).2) (D :: Ds) rest ∧
          res = rest.map fun Os => Q :: Os

/-- `tensor.py` 559-572: `orthogonalize`; `res` is a possible result or error. -/
def TT.FlOrthogonalize (u : ℝ) (la : LinAlg) (X : TT ℝ) (res : Except PyErr (TT ℝ)) : Prop :=
  ∃ Os, TT.FlOrthLoop u la none X.cores Os ∧ res = Os.map TT.mk

/-- `np.linalg.norm(A)` for an array: a rounded square root of a sum of squares. -/
def FlNorm2 (u : ℝ) (A : ND ℝ) (v : ℝ) : Prop :=
  ∃ w δ, FlVdot u ((List.range A.size).map fun n => (A.reshape [A.size]).get [n])
    ((List.range A.size).map fun n => (A.reshape [A.size]).get [n]) w ∧ |δ| ≤ u ∧ v = √w * (1 + δ)

/-- `tensor.py` 442-444: `TensorTrain.norm`; `res` is a possible result or error. -/
def TT.FlNorm (u : ℝ) (la : LinAlg) (X : TT ℝ) (res : Except PyErr ℝ) : Prop :=
  ∃ O, X.FlOrthogonalize u la O ∧
    match O with
    | .error e => res = .error e
    | .ok O => ∃ v, FlNorm2 u (O.cores.getLastD (ND.zeros [])) v ∧ res = .ok v

/-- `tensor.py` 598-600: `X.error(Y)` for tensor trains, with the default options: `self.add(-other).norm()`, where `-other` is
`other * (-1)` (`tensor.py` 35-36). -/
def TT.FlError (u : ℝ) (la : LinAlg) (X Y : TT ℝ) (res : Except PyErr ℝ) : Prop :=
  ∃ Z, Y.FlMul u (-1) Z ∧ (X.add Z).FlNorm u la res

end TTS
