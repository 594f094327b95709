import Mathlib.Algebra.Order.Field.Basic
import Mathlib.Data.Rat.Defs
import Mathlib.Algebra.Order.Ring.Rat
import Verif.Idx

/-!
# Specification of IEEE doubles and of index arrays
-/

namespace TTS.Spec

/-- The IEEE-754 binary64 value of a bit pattern with biased exponent not `0` and not `2047`
(normal numbers): `(-1)^sign * (1 + significand/2^52) * 2^(exponent - 1023)`. -/
def ieeeNormal (h : BitVec 64) : ℚ :=
  (-1) ^ (h.toNat / 2 ^ 63) * (1 + ((h.toNat % 2 ^ 52 : ℕ) : ℚ) / 2 ^ 52)
    * (2 : ℚ) ^ (((h.toNat / 2 ^ 52 % 2 ^ 11 : ℕ) : ℤ) - 1023)

/-- A bit pattern is a positive, finite, normal double. -/
def IsPosNormal (h : BitVec 64) : Prop :=
  h.toNat / 2 ^ 63 = 0 ∧ 0 < h.toNat / 2 ^ 52 % 2 ^ 11 ∧ h.toNat / 2 ^ 52 % 2 ^ 11 < 2047

/-- The `(d, N)` array of `uint64` whose columns are the given `N` multi-indices. -/
def idxArray (d : ℕ) (idxs : List (List ℕ)) : List (List (BitVec 64)) :=
  (List.range d).map fun k => idxs.map fun i => BitVec.ofNat 64 (i.getD k 0)

/-- A shape as `uint64` array. -/
def shapeArray (shape : List ℕ) : List (BitVec 64) := shape.map (BitVec.ofNat 64)

end TTS.Spec
