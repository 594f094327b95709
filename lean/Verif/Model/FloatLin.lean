import Verif.Model.Float
import Verif.Model.MPO

/-!
# Arithmetic of tensor trains in floating point arithmetic

`MPO.__call__`, `TensorTrain.add` and `TensorTrain.__mul__` once more, with every numpy operation carried out in floating
point arithmetic; relations, as in `Model/Float.lean`.
-/

namespace TTS
open ND

/-- `C * c` for an array and a number: one multiplication for every entry. -/
def FlSmul (u : ℝ) (C : ND ℝ) (c : ℝ) (D : ND ℝ) : Prop := FlND u 1 D (C.smul c) (C.abs.smul |c|)

/-- `tensor.py` 507-512: `TensorTrain.__mul__`, the last core is scaled. -/
def TT.FlMul (u : ℝ) (X : TT ℝ) (c : ℝ) (Y : TT ℝ) : Prop :=
  ∃ D, FlSmul u (X.cores.getLastD (ND.zeros [])) c D ∧ Y = ⟨X.cores.dropLast ++ [D]⟩

/-- `tt_gmres.py` 94-100: one core of `MPO.__call__`. -/
def MPO.FlCallCore (u : ℝ) (M C D : ND ℝ) : Prop :=
  ∃ MC, FlEinsum u [([.i, .j, .k, .l], M), ([.a, .j, .b], C)] [.i, .a, .k, .l, .b] MC ∧
    D = MC.reshape [MC.dim 0 * MC.dim 1, MC.dim 2, MC.dim 3 * MC.dim 4]

/-- `tt_gmres.py` 92-102: `MPO.__call__`. -/
def MPO.FlCall (u : ℝ) (A : MPO ℝ) (X Y : TT ℝ) : Prop :=
  List.Forall₂ (fun (p : ND ℝ × ND ℝ) D => MPO.FlCallCore u p.1 p.2 D) (A.cores.zip X.cores) Y.cores

/-- A program that computes with tensor trains: given tensor trains, `A(X)` (`tt_gmres.py` 92-102), `X.add(Y)` (`tensor.py`
520-540) and `X * c` (`tensor.py` 507-512). -/
inductive TTExpr
  | tt (X : TT ℝ)
  | apply (A : MPO ℝ) (e : TTExpr)
  | add (e f : TTExpr)
  | mul (e : TTExpr) (c : ℝ)

/-- The result of the program in exact arithmetic. -/
def TTExpr.eval : TTExpr → TT ℝ
  | .tt X => X
  | .apply A e => A.call e.eval
  | .add e f => e.eval.add f.eval
  | .mul e c => e.eval.mul c

/-- `Y` is a possible result of the program in floating point arithmetic.  `add` only copies numbers (`np.concatenate` with
zeros), so nothing is rounded there. -/
def TTExpr.FlEval (u : ℝ) : TTExpr → TT ℝ → Prop
  | .tt X, Y => Y = X
  | .apply A e, Y => ∃ X, e.FlEval u X ∧ A.FlCall u X Y
  | .add e f, Y => ∃ X Z, e.FlEval u X ∧ f.FlEval u Z ∧ Y = X.add Z
  | .mul e c, Y => ∃ X, e.FlEval u X ∧ X.FlMul u c Y

end TTS
