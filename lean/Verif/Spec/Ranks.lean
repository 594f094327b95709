import Mathlib.Data.Nat.Notation
import Mathlib.Algebra.BigOperators.Group.List.Defs

/-!
# Specification: what a consistent tuple of tensor-train ranks is

Independent of the model: plain inequalities between list entries.
-/

namespace TTS.Spec

/-- The bond dimensions of a train with inner ranks `rs`: `1, r_1, ..., r_{d-1}, 1`. -/
def bonds (rs : List ℕ) : List ℕ := 1 :: (rs ++ [1])

/-- A tuple of inner ranks is consistent with the mode sizes `dims`: it has one entry fewer than
`dims` and no bond is larger than the product of the neighbouring bond with the mode in between. -/
def ConsistentRanks (dims rs : List ℕ) : Prop :=
  rs.length + 1 = dims.length ∧
  ∀ i < dims.length,
    (bonds rs).getD (i + 1) 0 ≤ (bonds rs).getD i 0 * dims.getD i 0 ∧
    (bonds rs).getD i 0 ≤ dims.getD i 0 * (bonds rs).getD (i + 1) 0

/-- Entrywise comparison of two rank tuples of the same length. -/
def RanksLe (rs ss : List ℕ) : Prop :=
  rs.length = ss.length ∧ ∀ i < rs.length, rs.getD i 0 ≤ ss.getD i 0

end TTS.Spec
