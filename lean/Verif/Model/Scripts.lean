import Verif.Model.ExperimentFns
import Mathlib.Analysis.SpecialFunctions.Pow.Real

/-!
# Model of functions of the plotting scripts

`tt_exp_decay` and `tt_error_func` of `scripts/plot_dimension_scaling.py`, `plot_dimension_scaling_gaussian.py` and
`plot_timings.py`.
-/

namespace TTS

/-- `np.logspace(0, stop, n)`: powers of ten with equally spaced exponents from `0` to `stop`. -/
noncomputable def logspace (stop : ℝ) (n : ℕ) : List ℝ :=
  (List.range n).map fun k : ℕ => (10 : ℝ) ^ (stop * k / (n - 1 : ℕ))

/-- `plot_dimension_scaling.py` 35-40, `plot_timings.py` 47-52: `mat_shape`. -/
def matShape (r n s : ℕ) : ℕ × ℕ := if min r (n * s) < min (r * n) s then (r * n, s) else (r, n * s)

/-- `plot_dimension_scaling.py` 34-46 (`keep = false`, new singular values) and `plot_timings.py` 46-57 (`keep = true`, the
old ones are multiplied): what happens to one core. -/
noncomputable def decayCore (la : LinAlg) (keep : Bool) (stop : ℝ) (C : ND ℝ) : ND ℝ :=
  let mn := matShape (C.dim 0) (C.dim 1) (C.dim 2)
  let USV := la.svdThin (C.reshape [mn.1, mn.2])
  let S := if keep then List.zipWith (· * ·) USV.2.1 (logspace stop USV.2.1.length)
    else (logspace stop USV.2.1.length).map fun x => x * √ ((min mn.1 mn.2 : ℕ) : ℝ)
  ((USV.1.matmul (ND.diag S)).matmul USV.2.2).reshape C.shape

/-- `plot_dimension_scaling.py` 29-47, `plot_timings.py` 41-58 and `plot_dimension_scaling_gaussian.py` 27-46 (which also
computes a left-orthogonal form and throws it away): `tt_exp_decay`.  `seed` is the seed numpy draws if none is given. -/
noncomputable def ttExpDecay (env : Env ℝ) (la : LinAlg) (keep : Bool) (shape : List ℕ) (rank : RankArg) (stop : ℝ)
    (seed : ℕ) : Except PyErr (TT ℝ) :=
  (TT.random env shape rank seed true (some true) .norm1).map fun X => ⟨X.cores.map (decayCore la keep stop)⟩

/-- `plot_dimension_scaling.py` 51-52: a sketch is replaced by its tensor train; other objects are assumed to be tensor
trains (`add` of another class does not exist: `AttributeError`). -/
def Obj.asTT (env : Env ℝ) : Obj ℝ → Except PyErr (TT ℝ)
  | .atom (.sketched S) => S.toTT env
  | .atom (.leaf (.tt X)) => .ok X
  | _ => .error .attributeError

open Classical in
/-- `plot_dimension_scaling.py` 50-59 (`typo = false`) and `plot_timings.py` 61-68 (`typo = true`: `np.infa`, no argument
`relative`): `tt_error_func`. -/
noncomputable def ttErrorFunc (env : Env ℝ) (la : LinAlg) (typo : Bool) (Y : Obj ℝ) (X : TT ℝ) (relative : Bool) :
    Except PyErr PyFloat :=
  (Y.asTT env).andThen fun Y =>
  (X.norm la).andThen fun nX =>
  if nX = 0 then if typo then .error .attributeError else .ok .inf
  else ((Y.add (X.mul (-1))).norm la).andThen fun e => .ok (.val (if relative then e / nX else e))

end TTS
