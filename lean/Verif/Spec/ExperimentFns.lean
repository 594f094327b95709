import Verif.Spec.Numerics
import Verif.Spec.Ranks

/-!
# What a recompressed approximation is
-/

namespace TTS.Spec

open TTS

/-- `Y` is a good approximation of `A` with ranks at most `rs`, obtained from the approximation `T`: its distance to `A`
is at most `1 + √(d-1)` times the distance of `T` to `A`, plus `√(d-1)` times the distance to `A` of any tensor train
with ranks at most `rs`. -/
structure Truncated (A : ND ℝ) (T Y : TT ℝ) (rs : List ℕ) : Prop where
  valid : Y.Valid
  shape : Y.shape = A.shape
  rank : RanksLe Y.rank rs
  near : ∀ W : TT ℝ, W.Valid → W.shape = A.shape → RanksLe W.rank rs →
    √ (distSq A Y.toNumpy) ≤ (1 + √ ((A.shape.length - 1 : ℕ) : ℝ)) * √ (distSq A T.toNumpy)
      + √ ((A.shape.length - 1 : ℕ) : ℝ) * √ (distSq A W.toNumpy)

end TTS.Spec
