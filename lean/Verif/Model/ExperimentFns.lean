import Verif.Model.Objects
import Verif.Spec.Objects

/-!
# Model of `scripts/experiment_base.py`: the experiment functions

What the five functions put into the column `error`.  Not modelled: the time that is measured (`time_taken`) and further
keyword arguments, which the functions ignore; a rank that is not given (`None`) in the sketching functions.
-/

namespace TTS

/-- The argument `error_func`: called with the approximation and the input. -/
abbrev ErrorFunc := Obj ℝ → Tensor ℝ → Except PyErr PyFloat

/-- `experiment_base.py` 115-118, 144-147, 164-167, 177-180, 189-192: the error that is recorded. -/
noncomputable def reportedError (env : Env ℝ) (la : LinAlg) (errorFunc : Option ErrorFunc) (Y : Obj ℝ) (X : Tensor ℝ) :
    Except PyErr PyFloat :=
  match errorFunc with
  | some f => f Y X
  | none => Y.error env la X.toObj true false false

/-- `experiment_base.py` 112: `assert max(tt.rank) <= recompression_rank`; `max` of an empty tuple raises `ValueError`,
comparing a number with a tuple `TypeError`. -/
def assertMaxRank (Y : TT ℝ) : RankArg → Except PyErr Unit
  | .int r =>
    match Y.rank.max? with
    | none => .error .valueError
    | some m => if m ≤ r then .ok () else .error .assertionError
  | .seq _ =>
    match Y.rank.max? with
    | none => .error .valueError
    | some _ => .error .typeError

/-- `experiment_base.py` 92-119: `experiment_stream_sketch`. -/
noncomputable def experimentStreamSketch (env : Env ℝ) (la : LinAlg) (X : Tensor ℝ) (lrank rrank : RankArg)
    (lt rt : Option DRMKind) (errorFunc : Option ErrorFunc) (recompression : Option RankArg) : Except PyErr PyFloat :=
  (streamSketch env X lrank rrank { leftType := lt, rightType := rt }).andThen fun S =>
  match recompression with
  | none => reportedError env la errorFunc (.atom (.sketched S)) X
  | some a =>
    (S.toTT env).andThen fun T =>
    (T.round la none (some a) false).andThen fun Y =>
    (assertMaxRank Y a).andThen fun _ =>
    reportedError env la errorFunc (.atom (.leaf (.tt Y))) X

/-- `experiment_base.py` 141-142, 161-162: `round(max_rank=recompression_rank)`, unless it is `None`. -/
noncomputable def recompress (la : LinAlg) (Y : TT ℝ) : Option RankArg → Except PyErr (TT ℝ)
  | none => .ok Y
  | some a => Y.round la none (some a) false

/-- `experiment_base.py` 122-148: `experiment_orthogonal_sketch`. -/
noncomputable def experimentOrthogonalSketch (env : Env ℝ) (la : LinAlg) (X : Tensor ℝ) (lrank rrank : RankArg)
    (lt rt : Option DRMKind) (errorFunc : Option ErrorFunc) (recompression : Option RankArg) : Except PyErr PyFloat :=
  (orthogonalSketch env X lrank rrank { leftType := lt, rightType := rt }).andThen fun T =>
  (recompress la T.1 recompression).andThen fun Y =>
  reportedError env la errorFunc (.atom (.leaf (.tt Y))) X

/-- `experiment_base.py` 151-168: `experiment_hmt_sketch`. -/
noncomputable def experimentHmtSketch (env : Env ℝ) (la : LinAlg) (X : Tensor ℝ) (rank : RankArg)
    (kind : Option DRMKind) (errorFunc : Option ErrorFunc) (recompression : Option RankArg) : Except PyErr PyFloat :=
  (hmtSketch env X rank none kind).andThen fun T =>
  (recompress la T recompression).andThen fun Y =>
  reportedError env la errorFunc (.atom (.leaf (.tt Y))) X

/-- `experiment_base.py` 171-181: `experiment_tt_svd`. -/
noncomputable def experimentTTSvd (env : Env ℝ) (la : LinAlg) (X : Tensor ℝ) (rank : Option RankArg)
    (errorFunc : Option ErrorFunc) : Except PyErr PyFloat :=
  (ttSvd la X.toNumpy rank).andThen fun Y => reportedError env la errorFunc (.atom (.leaf (.tt Y))) X

/-- `experiment_base.py` 183-193: `experiment_tt_round`. -/
noncomputable def experimentTTRound (env : Env ℝ) (la : LinAlg) (X : TT ℝ) (rank : Option RankArg)
    (errorFunc : Option ErrorFunc) : Except PyErr PyFloat :=
  (X.round la none rank false).andThen fun Y =>
  reportedError env la errorFunc (.atom (.leaf (.tt Y))) (.leaf (.tt X))

end TTS
