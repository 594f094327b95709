import Verif.Spec.Nystrom
import Verif.Spec.RightCols

/-! # The maps of a streaming sketch, in terms of the sketched unfoldings

As in `Spec/Nystrom.lean`, with any sketched unfoldings `M k` (rows: the indices of the first `k` modes) in place of the
unfolding times a matrix.  `Tensor.rightCols` are the sketched unfoldings of a tensor of any format. -/

namespace TTS

open Finset

/-- The map `Z ↦ M_k G (L Z_k)` on arrays of the shape of `A`, where `Z_k` is the unfolding, `M_k` has `r` columns and
`L` has `l` rows. -/
def obliqueCols (A : ND ℝ) (L : Mats ℝ) (M : ℕ → List ℕ → ℕ → ℝ) (k l r : ℕ) (G : ℕ → ℕ → ℝ) (Z : ND ℝ) : ND ℝ :=
  ND.ofFn A.shape fun i => ∑ b ∈ range r, M k (i.take k) b * ∑ a ∈ range l, G b a * leftSketch Z L k a (i.drop k)

/-- The maps for the bonds `1, …, k` one after the other, the last one first: `P₁ (P₂ (… (P_k Z)))`. -/
def obliquesCols (A : ND ℝ) (L : Mats ℝ) (M : ℕ → List ℕ → ℕ → ℝ) (l r : List ℕ) (G : ℕ → ℕ → ℕ → ℝ) : ℕ → ND ℝ → ND ℝ
  | 0, Z => Z
  | k + 1, Z => obliquesCols A L M l r G k (obliqueCols A L M (k + 1) (l.getD k 0) (r.getD k 0) (G k) Z)

/-- `G mu` is the Moore-Penrose inverse of `Omega[mu] = L M` (bond behind mode `mu`), for every bond. -/
def PinvsOfCols (A : ND ℝ) (L : Mats ℝ) (M : ℕ → List ℕ → ℕ → ℝ) (lr rr : List ℕ) (G : ℕ → ℕ → ℕ → ℝ) : Prop :=
  ∀ mu < A.shape.length - 1, IsPinv (matOf (lr.getD mu 0) (rr.getD mu 0) (colsOmega A.shape L M (mu + 1)))
    (matOf (rr.getD mu 0) (lr.getD mu 0) (G mu))

/-- `‖P_mu Z‖ ≤ c mu ‖Z‖` for all bonds and all arrays `Z` of the shape of `A`. -/
def NormBoundsCols (A : ND ℝ) (L : Mats ℝ) (M : ℕ → List ℕ → ℕ → ℝ) (lr rr : List ℕ) (G : ℕ → ℕ → ℕ → ℝ)
    (c : ℕ → ℝ) : Prop :=
  ∀ mu < A.shape.length - 1, 0 ≤ c mu ∧ ∀ Z : ND ℝ, Z.shape = A.shape →
    √(normSq (obliqueCols A L M (mu + 1) (lr.getD mu 0) (rr.getD mu 0) (G mu) Z)) ≤ c mu * √(normSq Z)

/-- `Y` is the streaming approximation of `A` with the left matrices `L` and the sketched unfoldings `M`. -/
structure StreamApproxCols (A : ND ℝ) (L : Mats ℝ) (M : ℕ → List ℕ → ℕ → ℝ) (lr rr : List ℕ) (Y : ND ℝ) : Prop where
  /-- it is `P_1 P_2 … P_(d-1) A` -/
  product : ∀ G, PinvsOfCols A L M lr rr G → Y = obliquesCols A L M lr rr G (A.shape.length - 1) A
  /-- the maps are projections -/
  projection : ∀ G, PinvsOfCols A L M lr rr G → ∀ mu < A.shape.length - 1, ∀ Z : ND ℝ,
    obliqueCols A L M (mu + 1) (lr.getD mu 0) (rr.getD mu 0) (G mu)
        (obliqueCols A L M (mu + 1) (lr.getD mu 0) (rr.getD mu 0) (G mu) Z)
      = obliqueCols A L M (mu + 1) (lr.getD mu 0) (rr.getD mu 0) (G mu) Z
  /-- the error is bounded by the errors of the bonds, amplified by the norms of the projections before them -/
  error : ∀ G c, PinvsOfCols A L M lr rr G → NormBoundsCols A L M lr rr G c →
    √(distSq A Y) ≤ ∑ mu ∈ range (A.shape.length - 1), (∏ nu ∈ range mu, c nu)
      * √(distSq A (obliqueCols A L M (mu + 1) (lr.getD mu 0) (rr.getD mu 0) (G mu) A))
  /-- if every `Omega[mu]` has full column rank, the error of a bond is at most `1 + c mu` times the error of any
  approximation of the unfolding within the range of the sketched unfolding -/
  range : ∀ G c, PinvsOfCols A L M lr rr G → NormBoundsCols A L M lr rr G c →
    (∀ mu < A.shape.length - 1,
      (matOf (lr.getD mu 0) (rr.getD mu 0) (colsOmega A.shape L M (mu + 1))).rank = rr.getD mu 0) →
    ∀ B : ℕ → ℕ → List ℕ → ℝ, √(distSq A Y) ≤ ∑ mu ∈ range (A.shape.length - 1), (∏ nu ∈ range mu, c nu)
      * ((1 + c mu) * √(colsErrSq A M (mu + 1) (rr.getD mu 0) (B mu)))

end TTS
