import Verif.Spec.TuckerSketch
import Verif.Spec.OrthErr

/-! # The sketched unfoldings, for every format

What a right DRM makes of the `k`-th unfolding of a tensor.  For sparse, TT and CP tensors this is the unfolding times
the matrix of the DRM; dense arrays and Tucker tensors look the rows of that matrix up in the unreversed order of the
index (C33, C34), Tucker tensors after applying the factors. -/

namespace TTS

open Finset

section
variable {K : Type*} [CommRing K]

/-- The right contraction of the Tucker tensor `X` on the modes from `k` on, as `DRM` matrices act on it (row `p` an index
of the first `k` modes). -/
def Tucker.rightContr (X : Tucker K) (R : Mats K) (k : ℕ) (p : List ℕ) (b : ℕ) : K :=
  sumIdx (X.rank.take k) fun s => facProd (X.factors.take k) s p *
    sumIdx (X.rank.drop k) fun t => X.core.get (s ++ t) * (X.absorbRight R).misread X.rank k t b

/-- Entry `(p, b)` of the sketched `k`-th unfolding of a single tensor. -/
def Leaf.rightCols (env : Env K) (r : DRM K) (k : ℕ) (p : List ℕ) (b : ℕ) : Leaf K → K
  | .dense X => sumIdx (X.shape.drop k) fun q => X.get (p ++ q) * r.rightMatsDense env k q b
  | .tucker X => X.rightContr (r.rightMats env) k p b
  | t => sumIdx (t.shape.drop k) fun q => t.toNumpy.get (p ++ q) * r.rightMats env k q b

/-- Entry `(p, b)` of the sketched `k`-th unfolding of a tensor: the sum over its summands. -/
def Tensor.rightCols (env : Env K) (r : DRM K) (X : Tensor K) (k : ℕ) (p : List ℕ) (b : ℕ) : K :=
  (X.summands.map fun t => t.rightCols env r k p b).sum

/-- Entry `(c, b)` of the matrix `Omega`: the left matrix (`k` modes) times sketched columns `W`. -/
def colsOmega (sh : List ℕ) (L : Mats K) (W : ℕ → List ℕ → ℕ → K) (k c b : ℕ) : K :=
  sumIdx (sh.take k) fun p => L k p c * W k p b

end

/-- `‖A_k - W B‖²`, where `A_k` is the `k`-th unfolding and `W` has `r` columns. -/
def colsErrSq (A : ND ℝ) (W : ℕ → List ℕ → ℕ → ℝ) (k r : ℕ) (B : ℕ → List ℕ → ℝ) : ℝ :=
  sumIdx A.shape fun i => (A.get i - ∑ b ∈ range r, W k (i.take k) b * B b (i.drop k)) ^ 2

end TTS
