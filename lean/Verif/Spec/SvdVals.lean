import Verif.Spec.Numerics

/-!
# Singular values of the unfoldings of a tensor
-/

namespace TTS.Spec

open Finset

/-- `S` are the (nonzero, possibly padded with zeros) singular values of the unfolding of `A` in which the first `k` modes
are the rows and the other modes the columns: they are nonnegative, in decreasing order, and there are orthonormal
vectors `u t` over the row indices and `v t` over the column indices with `A[p, q] = ∑ t, u_t[p] S_t v_t[q]`. -/
def IsSingularValues (A : ND ℝ) (k : ℕ) (S : List ℝ) : Prop :=
  (∀ t, 0 ≤ S.getD t 0) ∧ (∀ s t, s ≤ t → S.getD t 0 ≤ S.getD s 0) ∧
  ∃ u v : ℕ → List ℕ → ℝ,
    (∀ s < S.length, ∀ t < S.length, sumIdx (A.shape.take k) (fun p => u s p * u t p) = if s = t then 1 else 0) ∧
    (∀ s < S.length, ∀ t < S.length, sumIdx (A.shape.drop k) (fun q => v s q * v t q) = if s = t then 1 else 0) ∧
    ∀ p q, InR (A.shape.take k) p → InR (A.shape.drop k) q →
      A.get (p ++ q) = ∑ t ∈ range S.length, u t p * S.getD t 0 * v t q

/-- The ranks of a tensor train after a left-to-right sweep: `r'_k = min (r'_{k-1} n_k) r_k`, starting from `r'_0`. -/
def leftRanks : ℕ → List ℕ → List ℕ → List ℕ
  | r, n :: ns, k :: ks => min (r * n) k :: leftRanks (min (r * n) k) ns ks
  | _, _, _ => []

/-- The condition under which no bond is larger than the modes to its right allow: `r'_k ≤ n_{k+1} r_{k+1}` with
`r_d = 1`. -/
def FitsRight (shape ranks : List ℕ) : Prop :=
  ∀ k < ranks.length, (leftRanks 1 shape ranks).getD k 0 ≤ shape.getD (k + 1) 0 * (ranks ++ [1]).getD (k + 1) 0

end TTS.Spec
