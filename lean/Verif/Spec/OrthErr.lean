import Verif.Spec.Numerics
import Verif.Spec.Sketch
import Verif.Spec.Contract

/-! # Specification for the error theorems of `orthogonal_sketch` and `hmt_sketch` -/

namespace TTS

open Finset

/-- `Y` is the orthogonal projection of the array `A` onto the tensors that have a tensor train with all the cores of
`Y` except the last one: `A - Y` is orthogonal to all of them, `Y` is the closest of them to `A`, and so
`‖A‖² = ‖Y‖² + ‖A - Y‖²`. -/
structure ProjectsOntoFrame (A : ND ℝ) (Y : TT ℝ) : Prop where
  inner : ∀ Z : TT ℝ, Z.Valid → Z.shape = A.shape → Z.cores.dropLast = Y.cores.dropLast →
    innerND A Z.toNumpy = innerND Y.toNumpy Z.toNumpy
  best : ∀ Z : TT ℝ, Z.Valid → Z.shape = A.shape → Z.cores.dropLast = Y.cores.dropLast →
    distSq A Y.toNumpy ≤ distSq A Z.toNumpy
  norm : normSq A = normSq Y.toNumpy + distSq A Y.toNumpy

/-- Entry `(p, b)` of the product of the `k`-th unfolding of `A` (row `p`) with the right sketching matrix. -/
def rightSketch (A : ND ℝ) (R : Mats ℝ) (k : ℕ) (p : List ℕ) (b : ℕ) : ℝ :=
  sumIdx (A.shape.drop k) fun q => A.get (p ++ q) * R k q b

/-- Entry `(a, q)` of the product of the left sketching matrix with the `k`-th unfolding of `A` (column `q`). -/
def leftSketch (A : ND ℝ) (L : Mats ℝ) (k a : ℕ) (q : List ℕ) : ℝ :=
  sumIdx (A.shape.take k) fun p => L k p a * A.get (p ++ q)

/-- `‖A_k - (A_k R) B‖²`, where `A_k` is the `k`-th unfolding and `A_k R` has `r` columns. -/
def rangeErrSq (A : ND ℝ) (R : Mats ℝ) (k r : ℕ) (B : ℕ → List ℕ → ℝ) : ℝ :=
  sumIdx A.shape fun i => (A.get i - ∑ b ∈ range r, rightSketch A R k (i.take k) b * B b (i.drop k)) ^ 2

/-- `‖A_k - (A_k R) G (L A_k)‖²`: the generalised Nyström approximation of the `k`-th unfolding. -/
def nystromErrSq (A : ND ℝ) (L R : Mats ℝ) (k l r : ℕ) (G : ℕ → ℕ → ℝ) : ℝ :=
  rangeErrSq A R k r fun b q => ∑ c ∈ range l, G b c * leftSketch A L k c q

end TTS
