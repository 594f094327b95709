import Verif.Model.FloatOrth

/-!
# `TensorTrain.round` in floating point arithmetic

As in `Model/Numerics.lean`, with every numpy operation rounded; relations, as in `Model/Float.lean`.  `np.linalg.svd` and
`np.linalg.qr` are the routines of `la`, whose results may be inexact.
-/

namespace TTS

/-- `tensor.py` 471-482: the loop of `round`, from one core on, last core first (as `TT.roundLoop`), with the products `S[0] * eps`,
`U[:, :r] @ np.diag(S[:r])` and the contraction with the next core rounded. -/
def TT.FlRoundLoop (u : ℝ) (la : LinAlg) (eps : ℝ) (maxRank : List ℕ) :
    Option (ND ℝ) → List (ND ℝ) → Except PyErr (List (ND ℝ)) → Prop
  | _, [], res => res = .ok []
  | US, C :: Cs, res => ∃ C' : ND ℝ,
    (match US with
      | none => C' = C
      | some US => FlEinsum u [([.i, .j, .k], C), ([.k, .l], US)] [.i, .j, .l] C') ∧
    match Cs with
    | [] => res = .ok [C']
    | D :: Ds => ∃ (δ : ℝ) (W : ND ℝ), |δ| ≤ u ∧
      let USV := la.svd (C'.reshape [C'.dim 0, C'.dim 1 * C'.dim 2])
      let r := keepRank USV.2.1 (eps * (1 + δ)) (maxRank.getD Ds.length 0)
      FlMatmul u (USV.1.cols 0 r) (ND.diag (USV.2.1.take r)) W ∧
      if USV.2.1 = [] then res = .error .indexError
      else
        match (USV.2.2.rows 0 r).reshape? [r, C'.dim 1, C'.dim 2] with
        | .error e => res = .error e
        | .ok V => ∃ rest, TT.FlRoundLoop u la eps maxRank (some W) (D :: Ds) rest ∧ res = rest.map fun Ns => V :: Ns

/-- `tensor.py` 446-484: `round(eps, max_rank, orthogonalized)`; `res` is a possible result or error. -/
def TT.FlRound (u : ℝ) (la : LinAlg) (X : TT ℝ) (eps : Option ℝ) (maxRank : Option RankArg) (orthogonalized : Bool)
    (res : Except PyErr (TT ℝ)) : Prop :=
  ∃ O, (if orthogonalized then O = .ok X else X.FlOrthogonalize u la O) ∧
    match O with
    | .error e => res = .error e
    | .ok tt =>
      match processTTRank (maxRank.getD (.seq tt.rank)) tt.shape true with
      | .error e => res = .error e
      | .ok mr => ∃ Ns, TT.FlRoundLoop u la (eps.getD 0) mr none tt.cores.reverse Ns ∧ res = Ns.map fun l => ⟨l.reverse⟩

end TTS
