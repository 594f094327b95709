import Verif.Model.FloatRound

/-!
# `TensorTrain.svdvals` in floating point arithmetic

As in `Model/Numerics.lean`, with every numpy operation rounded; relations, as in `Model/Float.lean`.  `np.linalg.svd` and
`np.linalg.qr` are the routines of `la`, whose results may be inexact.
-/

namespace TTS

/-- `tensor.py` 491-503: the loop of `svdvals`, over the cores last one first (as `TT.svdvalsLoop`), with `U @ np.diag(S)` and its
contraction with the next core rounded. -/
def TT.FlSvdvalsLoop (u : ℝ) (la : LinAlg) : Option (ND ℝ × List ℝ) → List (ND ℝ) → Except PyErr (List (List ℝ)) → Prop
  | _, [], res => res = .ok []
  | US, C :: Cs, res => ∃ C' : Except PyErr (ND ℝ),
    (match US with
      | none => C' = .ok C
      | some (U, S) => if U.dim 1 ≠ S.length then C' = .error .valueError
        else ∃ W E, FlMatmul u U (ND.diag S) W ∧ FlEinsum u [([.i, .j, .k], C), ([.k, .l], W)] [.i, .j, .l] E ∧ C' = .ok E) ∧
    match C' with
    | .error e => res = .error e
    | .ok C => ∃ rest,
      let M := match Cs with
        | [] => C.reshape [C.dim 0 * C.dim 1, C.dim 2]
        | _ => C.reshape [C.dim 0, C.dim 1 * C.dim 2]
      TT.FlSvdvalsLoop u la (some ((la.svd M).1, (la.svd M).2.1)) Cs rest ∧ res = rest.map fun L => (la.svd M).2.1 :: L

/-- `tensor.py` 486-505: `svdvals`; `res` is a possible result or error. -/
def TT.FlSvdvals (u : ℝ) (la : LinAlg) (X : TT ℝ) (res : Except PyErr (List (List ℝ))) : Prop :=
  ∃ O, X.FlOrthogonalize u la O ∧
    match O with
    | .error e => res = .error e
    | .ok tt => ∃ L, TT.FlSvdvalsLoop u la none tt.cores.reverse L ∧ res = L.map List.reverse

end TTS
