import Verif.Model.Tensor

/-!
# Ranks a tensor has by the way it is stored
-/

namespace TTS

variable {K : Type*} [Zero K]

/-- A bound on the rank of the unfolding of a tensor after the first `mu + 1` modes, read off its format: the bond of a
tensor train, the number of components of a CP tensor or of stored entries of a sparse tensor, the smaller side of the
unfolding of the array or of the Tucker core. -/
def Leaf.bond : Leaf K → ℕ → ℕ
  | .dense X, mu => min (X.shape.take (mu + 1)).prod (X.shape.drop (mu + 1)).prod
  | .sparse X, _ => X.nnz
  | .tt X, mu => X.rank.getD mu 0
  | .cp X, _ => X.rank
  | .tucker X, mu => min (X.rank.take (mu + 1)).prod (X.rank.drop (mu + 1)).prod

/-- The same for lazy sums: bonds add up. -/
def Tensor.bond (X : Tensor K) (mu : ℕ) : ℕ := (X.summands.map fun t => t.bond mu).sum

end TTS
