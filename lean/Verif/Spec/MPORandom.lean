import Verif.Spec.MPO

/-!
# What `MPO.random` is specified to produce
-/

namespace TTS

open Finset

/-- What becomes of the random numbers `g` of a core with input size `s1` and output size `s2` when the array is added
to its own transpose in the two middle axes, the transpose being read in row-major order into the untransposed
`s1 × s2` shape: position `i * s2 + j` of the transpose is its entry `((i * s2 + j) / s1, (i * s2 + j) % s1)`. -/
def foldedDraw (g : List ℕ → ℝ) (s1 s2 a i j b : ℕ) : ℝ :=
  g [a, i, j, b] + g [a, (i * s2 + j) % s1, (i * s2 + j) / s1, b]

/-- The sum of squares of all folded random numbers of a core. -/
def foldedSq (g : List ℕ → ℝ) (r1 s1 s2 r2 : ℕ) : ℝ :=
  ∑ a ∈ range r1, ∑ i ∈ range s1, ∑ j ∈ range s2, ∑ b ∈ range r2, foldedDraw g s1 s2 a i j b ^ 2

/-- The sum of squares of all entries of an array. -/
def entrySq (C : ND ℝ) : ℝ := sumIdx C.shape fun i => C.get i ^ 2

end TTS
