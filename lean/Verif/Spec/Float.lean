import Mathlib.Data.Real.Basic
import Mathlib.Algebra.Order.Group.Unbundled.Abs
import Mathlib.Algebra.Order.BigOperators.Group.Finset
import Verif.Spec.Tensor

/-!
# Floating point arithmetic

The standard model of floating point arithmetic with unit roundoff `u`: every addition and every
multiplication returns the exact result times `1 + δ` with `|δ| ≤ u` (no overflow, no underflow).
Nothing is said about the `δ`s apart from their size, and nothing about the order in which numpy
and BLAS carry out the operations of a sum of products.
-/

namespace TTS

/-- `FlVal u k x a v`: `v` is obtained by evaluating an arithmetic expression (additions and
multiplications of given numbers, in some order) in floating point arithmetic; `x` is the exact
value of the expression, `a` its value with all the given numbers replaced by their absolute
values, and `k` bounds the number of roundings that any given number goes through. -/
inductive FlVal (u : ℝ) : ℕ → ℝ → ℝ → ℝ → Prop
  | exact (x : ℝ) : FlVal u 0 x |x| x
  | add {k l : ℕ} {x a v y b w δ : ℝ} : FlVal u k x a v → FlVal u l y b w → |δ| ≤ u →
      FlVal u (max k l + 1) (x + y) (a + b) ((v + w) * (1 + δ))
  | mul {k l : ℕ} {x a v y b w δ : ℝ} : FlVal u k x a v → FlVal u l y b w → |δ| ≤ u →
      FlVal u (k + l + 1) (x * y) (a * b) (v * w * (1 + δ))

/-- The array `C` is a floating point evaluation, with at most `n` roundings, of expressions with
the exact values `E` and the absolute values `M`. -/
def FlND (u : ℝ) (n : ℕ) (C E M : ND ℝ) : Prop :=
  C.shape = E.shape ∧ ∀ i, InR E.shape i → ∃ k ≤ n, FlVal u k (E.get i) (M.get i) (C.get i)

/-- Entrywise absolute value of an array. -/
def ND.abs (A : ND ℝ) : ND ℝ := ND.ofFn A.shape fun i => |A.get i|

/-- The tensor train whose cores are the absolute values of the given ones. -/
def TT.abs (X : TT ℝ) : TT ℝ := ⟨X.cores.map ND.abs⟩

/-- The CP tensor whose factors are the absolute values of the given ones. -/
def CP.abs (X : CP ℝ) : CP ℝ := ⟨X.cores.map ND.abs⟩

/-- The Tucker tensor whose core and factors are the absolute values of the given ones. -/
def Tucker.abs (X : Tucker ℝ) : Tucker ℝ := ⟨X.factors.map ND.abs, X.core.abs⟩

/-- The sparse tensor with the absolute values of the given entries. -/
def Sparse.abs (X : Sparse ℝ) : Sparse ℝ := ⟨X.shape, X.entries.map fun e => (e.1, |e.2|)⟩

/-- A tensor with all stored numbers replaced by their absolute values. -/
def Leaf.abs : Leaf ℝ → Leaf ℝ
  | .dense X => .dense X.abs
  | .sparse X => .sparse X.abs
  | .tt X => .tt X.abs
  | .cp X => .cp X.abs
  | .tucker X => .tucker X.abs

/-- A lazy sum with all stored numbers replaced by their absolute values. -/
def TSum.abs (X : TSum ℝ) : TSum ℝ := ⟨X.shape, X.tensors.map Leaf.abs⟩

/-- The same for leaves and lazy sums. -/
def Tensor.abs : Tensor ℝ → Tensor ℝ
  | .leaf X => .leaf X.abs
  | .sum X => .sum X.abs

/-- Roundings of `to_numpy`: one for every bond value of a tensor train; the products of `d` factors
and the sum over the components of a CP tensor; one for every row of the factors of a Tucker
tensor. -/
def Leaf.denseRounds : Leaf ℝ → ℕ
  | .dense _ => 0
  | .sparse _ => 0
  | .tt X => X.rank.sum
  | .cp X => (X.cores.length - 1) + (X.rank - 1)
  | .tucker X => X.rank.sum

/-- Roundings of `gather`. -/
def Leaf.gatherRounds : Leaf ℝ → ℕ
  | .tt X => X.rank.sum
  | .cp X => X.cores.length + (X.rank - 1)
  | _ => 0

/-- Roundings of the inner product of two tensor trains with modes `n_k` and ranks `r_k`, `s_k`:
`n_1 + Σ_{k > 1} (r_k s_k n_k + 1)`. -/
def TT.dotRounds (X Y : TT ℝ) : ℕ :=
  X.shape.headD 0
    + (List.zipWith (fun n rs => rs.1 * rs.2 * n + 1) X.shape.tail (X.rank.zip Y.rank)).sum

/-- Roundings of `dot` of two tensors of the same shape. -/
def Leaf.dotRounds : Leaf ℝ → Leaf ℝ → ℕ
  | .tt X, .tt Y => X.dotRounds Y
  | .sparse S, .sparse _ => S.nnz
  | .sparse S, .tt Y => Leaf.gatherRounds (.tt Y) + S.nnz
  | .sparse S, .cp Y => Leaf.gatherRounds (.cp Y) + S.nnz
  | .tt X, .sparse S => Leaf.gatherRounds (.tt X) + S.nnz
  | .cp X, .sparse S => Leaf.gatherRounds (.cp X) + S.nnz
  | X, Y => X.denseRounds + Y.denseRounds + X.shape.prod

/-- Roundings of `to_numpy` of a lazy sum: those of the summands and the additions. -/
def Tensor.denseRounds : Tensor ℝ → ℕ
  | .leaf X => X.denseRounds
  | .sum X => (X.tensors.map Leaf.denseRounds).foldr max 0 + X.tensors.length

/-- Roundings of `dot`: those of the summands and the additions. -/
def Tensor.dotRounds : Tensor ℝ → Tensor ℝ → ℕ
  | .leaf X, .leaf Y => X.dotRounds Y
  | .leaf X, .sum Y => (Y.tensors.map fun t => t.dotRounds X).foldr max 0 + Y.tensors.length
  | .sum X, .leaf Y => (X.tensors.map fun t => t.dotRounds Y).foldr max 0 + X.tensors.length
  | .sum X, .sum Y =>
    (X.tensors.map fun t => (Y.tensors.map fun s => s.dotRounds t).foldr max 0
      + Y.tensors.length).foldr max 0 + X.tensors.length

/-- Relative size `(1 + u)^n - 1` of the error after `n` roundings. -/
noncomputable def flErr (u : ℝ) (n : ℕ) : ℝ := (1 + u) ^ n - 1

end TTS
