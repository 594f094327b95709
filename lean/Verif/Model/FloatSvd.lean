import Verif.Model.Float
import Verif.Model.Numerics

/-!
# `tt_svd` in floating point arithmetic

As in `Model/Numerics.lean`, with the products `np.diag(S) @ V` rounded; relations, as in `Model/Float.lean`.  The singular value
decomposition is the routine of `la`, whose results may be inexact.
-/

namespace TTS

/-- `tt_svd.py` 31-46: the loop over the inner modes and the last core, as `ttSvdLoop`; `res` is a possible result or error. -/
def FlTtSvdLoop (u : ℝ) (la : LinAlg) : ND ℝ → ℕ → List ℕ → List ℕ → Except PyErr (List (ND ℝ)) → Prop
  | A, r, n :: m :: shape, k :: ranks, res => ∃ W : ND ℝ,
    let USV := la.svdThin (A.matricize [0, 1] true)
    let r' := max (min (USV.1.dim 1) k) 1
    FlMatmul u (ND.diag (USV.2.1.take r')) (USV.2.2.rows 0 r') W ∧
    match (USV.1.cols 0 r').reshape? [r, n, r'] with
    | .error e => res = .error e
    | .ok core =>
      match W.reshape? (r' :: m :: shape) with
      | .error e => res = .error e
      | .ok A' => ∃ rest, FlTtSvdLoop u la A' r' (m :: shape) ranks rest ∧ res = rest.map fun cs => core :: cs
  | A, r, [n], _, res => res = (ttSvdLast A r n).map fun C => [C]
  | _, _, _, _, res => res = .error .indexError

/-- `tt_svd.py` 10-49: `tt_svd(tensor, rank)` for the array `A = tensor.to_numpy()`, as `ttSvd`. -/
def FlTtSvd (u : ℝ) (la : LinAlg) (A : ND ℝ) (rank : Option RankArg) (res : Except PyErr (TT ℝ)) : Prop :=
  match processTTRank (rank.getD (.seq (List.replicate (A.shape.length - 1) A.shape.prod))) A.shape true with
  | .error e => res = .error e
  | .ok ranks =>
    match A.shape, ranks with
    | n :: m :: shape, k :: ranks => ∃ W : ND ℝ,
      let USV := la.svdThin (A.matricize [0] false)
      let r := max (min (USV.1.dim 1) k) 1
      FlMatmul u (ND.diag (USV.2.1.take r)) (USV.2.2.rows 0 r) W ∧
      match (USV.1.cols 0 r).reshape? [1, n, r] with
      | .error e => res = .error e
      | .ok core =>
        match W.reshape? (r :: m :: shape) with
        | .error e => res = .error e
        | .ok A' => ∃ rest, FlTtSvdLoop u la A' r (m :: shape) ranks rest ∧ res = rest.map fun cs => ⟨core :: cs⟩
    | _, _ => res = .error .indexError

/-- `tt_svd.py` 10-49: `tt_svd(tensor, rank)` with the conversion `tensor.to_numpy()` rounded as well. -/
def Tensor.FlTtSvd (u : ℝ) (la : LinAlg) (X : Tensor ℝ) (rank : Option RankArg) (res : Except PyErr (TT ℝ)) : Prop :=
  ∃ A, X.FlToNumpy u A ∧ TTS.FlTtSvd u la A rank res

end TTS
