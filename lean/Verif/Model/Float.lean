import Mathlib.Data.Real.Sqrt
import Verif.Spec.Float

/-!
# The programs in floating point arithmetic

The tensor programs of `Model/Tensor.lean` once more, line by line, but with every numpy operation
carried out in floating point arithmetic (`FlVal`, `Spec/Float.lean`).  As numpy does not fix the
order of additions and multiplications within one call, these are relations: the last argument is
any result that the call may return.  Reshaping, transposing, indexing and copying are exact.
-/

namespace TTS
open Finset ND

/-- The number of terms of an einsum: the product of the sizes of the summed axes. -/
def ND.einsumTerms (ops : List (List Lb × ND ℝ)) (out : List Lb) : ℕ :=
  ((lbSummed out (ops.flatMap Prod.fst)).map (lbDim (ops.map fun p => (p.1, p.2.shape)))).prod

/-- `np.einsum` of `m` operands with `n` terms: `m - 1` multiplications and `n - 1` additions for
every given number.  This covers the direct summation in any order (with or without fused
multiply-add) and the pairwise contractions of `optimize="optimal"` (`flVal_sum`,
`flVal_pairwise`). -/
def FlEinsum (u : ℝ) (ops : List (List Lb × ND ℝ)) (out : List Lb) (C : ND ℝ) : Prop :=
  FlND u (einsumTerms ops out + ops.length - 2) C (einsum ops out)
    (einsum (ops.map fun p => (p.1, p.2.abs)) out)

/-- `np.einsum("...<ls>,<rs>->...<out>", A, B)`. -/
def FlEinsumE (u : ℝ) (A : ND ℝ) (ls : List Lb) (B : ND ℝ) (rs out : List Lb) (C : ND ℝ) : Prop :=
  FlND u ((lbSummed out (ls ++ rs)).map
      (lbDim [(ls, A.shape.drop (A.ndim - ls.length)), (rs, B.shape)])).prod C
    (einsumE A ls B rs out) (einsumE A.abs ls B.abs rs out)

/-- `A @ B`. -/
def FlMatmul (u : ℝ) (A B C : ND ℝ) : Prop :=
  FlND u (A.dim 1) C (A.matmul B) (A.abs.matmul B.abs)

/-- `np.sum(A, axis=-1)`. -/
def FlSumLast (u : ℝ) (A C : ND ℝ) : Prop :=
  FlND u (A.shape.getLastD 0 - 1) C A.sumLast A.abs.sumLast

/-- `np.sum(A)`. -/
def FlTotal (u : ℝ) (A : ND ℝ) (v : ℝ) : Prop :=
  ∃ k ≤ A.shape.prod - 1, FlVal u k A.total A.abs.total v

/-- `A + B` for arrays. -/
def FlAdd (u : ℝ) (A B C : ND ℝ) : Prop := FlND u 1 C (A.add B) (A.abs.add B.abs)

/-- `np.dot(x, y)` for vectors. -/
def FlVdot (u : ℝ) (x y : List ℝ) (v : ℝ) : Prop :=
  ∃ k ≤ x.length, FlVal u k (Leaf.vdot x y) (Leaf.vdot (x.map (|·|)) (y.map (|·|))) v

/-- A python loop `for x in xs: A = step(A, x)` with a nondeterministic step. -/
def flFold {α β : Type*} (step : β → α → β → Prop) : β → List α → β → Prop
  | A, [], B => B = A
  | A, x :: xs, B => ∃ A', step A x A' ∧ flFold step A' xs B

/-- `tensor.py` 315-321: `TensorTrain.to_numpy`. -/
def TT.FlToNumpy (u : ℝ) (X : TT ℝ) (B : ND ℝ) : Prop :=
  match X.cores with
  | [] => B = ND.zeros []
  | C :: Cs => ∃ A, flFold (fun A C A' => FlEinsumE u A [.j] C [.j, .k, .l] [.k, .l] A')
      (C.reshape C.shape.tail) Cs A ∧ B = A.reshape A.shape.dropLast

/-- `tensor.py` 542-555: `TensorTrain.dot` of two tensor trains. -/
def TT.FlDot (u : ℝ) (X Y : TT ℝ) (v : ℝ) : Prop :=
  ∃ init res, FlEinsum u [([.i, .j, .k], X.cores.headD (ND.zeros [])),
      ([.l, .j, .m], Y.cores.headD (ND.zeros []))] [.k, .m] init ∧
    flFold (fun R (p : ND ℝ × ND ℝ) R' => FlEinsum u [([.i, .j], R), ([.i, .k, .a], p.1),
      ([.j, .k, .b], p.2)] [.a, .b] R') init (X.cores.tail.zip Y.cores.tail) res ∧
    FlTotal u res v

/-- `tensor.py` 431-440: the loop body of `TensorTrain.gather`, products `result[row] @ C[:, j, :]`
of row vectors with matrices. -/
def TT.FlGatherStep (u : ℝ) (idxs : List (List ℕ)) (result : ND ℝ) (Ci : ND ℝ × ℕ) (next : ND ℝ) :
    Prop :=
  FlND u (result.dim 1) next (TT.gatherStep idxs result Ci)
    (TT.gatherStep idxs result.abs (Ci.1.abs, Ci.2))

/-- `tensor.py` 414-440: `TensorTrain.gather`. -/
def TT.FlGather (u : ℝ) (X : TT ℝ) (idxs : List (List ℕ)) (vs : List ℝ) : Prop :=
  match X.cores with
  | [] => vs = []
  | C :: Cs =>
    let M := C.reshape C.shape.tail
    let result := ND.ofFn [idxs.length, M.dim 1]
      fun nr => M.get [(idxs.getD (nr.getD 0 0) []).getD 0 0, nr.getD 1 0]
    ∃ res, flFold (TT.FlGatherStep u idxs) result (Cs.zipIdx 1) res ∧
      vs = (List.range (res.reshape [res.shape.prod]).size).map
        fun n => (res.reshape [res.shape.prod]).get [n]

/-- `tensor.py` 696-703: `CPTensor.to_numpy`. -/
def CP.FlToNumpy (u : ℝ) (X : CP ℝ) (B : ND ℝ) : Prop :=
  match X.cores with
  | [] => B = ND.zeros []
  | C :: Cs => ∃ A, flFold (fun A C A' => FlEinsumE u A [.j] C [.i, .j] [.i, .j] A') C Cs A ∧
      FlSumLast u A B

/-- `tensor.py` 726-732: `CPTensor.gather`, one multi-index: `res` is multiplied by the selected rows
one after the other, then summed. (`1 * C[id]` in the first pass is exact in floating point
arithmetic; it is allowed one rounding here as well.) -/
def CP.FlGather1 (u : ℝ) (X : CP ℝ) (i : List ℕ) (v : ℝ) : Prop :=
  ∃ res : ℕ → ℝ, (∀ r, flFold (fun a (p : ND ℝ × ℕ) a' => ∃ δ, |δ| ≤ u ∧
      a' = a * p.1.get [p.2, r] * (1 + δ)) 1 (X.cores.zip i) (res r)) ∧
    ∃ k ≤ X.rank - 1, FlVal u k (∑ r ∈ range X.rank, res r) (∑ r ∈ range X.rank, |res r|) v

/-- `tensor.py` 726-732: `CPTensor.gather`. -/
def CP.FlGather (u : ℝ) (X : CP ℝ) (idxs : List (List ℕ)) (vs : List ℝ) : Prop :=
  List.Forall₂ (CP.FlGather1 u X) idxs vs

/-- `tensor.py` 771-780: `TuckerTensor.to_numpy`. -/
def Tucker.FlToNumpy (u : ℝ) (X : Tucker ℝ) (B : ND ℝ) : Prop :=
  ∃ A, flFold (fun A (Ui : ND ℝ × ℕ) A' =>
      FlEinsum u [([.i, .j, .k], A.reshape [(X.shape.take Ui.2).prod, X.rank.getD Ui.2 0,
        (X.rank.drop (Ui.2 + 1)).prod]), ([.j, .l], Ui.1)] [.i, .l, .k] A')
      X.core X.factors.zipIdx A ∧ B = A.reshape X.shape

namespace Leaf

/-- `to_numpy` of all formats; for dense and sparse tensors (`tensor.py` 171-172, 236-239) nothing
is computed. -/
def FlToNumpy (u : ℝ) : Leaf ℝ → ND ℝ → Prop
  | .dense X, B => B = X
  | .sparse X, B => B = X.toNumpy
  | .tt X, B => X.FlToNumpy u B
  | .cp X, B => X.FlToNumpy u B
  | .tucker X, B => X.FlToNumpy u B

/-- `gather` of the formats that have it; a lookup for sparse tensors (`tensor.py` 275-286). -/
def FlGather (u : ℝ) : Leaf ℝ → Option (List (List ℕ) → List ℝ → Prop)
  | .sparse X => some fun idxs vs => vs = X.gather idxs
  | .tt X => some (X.FlGather u)
  | .cp X => some (X.FlGather u)
  | .dense _ => none
  | .tucker _ => none

/-- `tensor.py` 127-129: dense inner product. -/
def FlDenseDot (u : ℝ) (X Y : Leaf ℝ) (v : ℝ) : Prop :=
  ∃ A B, X.FlToNumpy u A ∧ Y.FlToNumpy u B ∧
    FlVdot u ((List.range A.shape.prod).map fun n => (A.reshape [A.shape.prod]).get [n])
      ((List.range A.shape.prod).map fun n => (B.reshape [B.shape.prod]).get [n]) v

/-- `X.dot(Y, reverse=True)`: `tensor.py` 121-129, 250-255, 542-557. -/
def FlDotRev (u : ℝ) (X Y : Leaf ℝ) (v : ℝ) : Prop :=
  match X with
  | .sparse S =>
    match Y.FlGather u with
    | some g => ∃ w, g (S.entries.map Prod.fst) w ∧ FlVdot u w (S.entries.map Prod.snd) v
    | none => FlDenseDot u X Y v
  | .tt A =>
    match Y with
    | .tt B => A.FlDot u B v
    | _ => FlDenseDot u X Y v
  | _ => FlDenseDot u X Y v

/-- `X.dot(Y)`: same lines. -/
def FlDot (u : ℝ) (X Y : Leaf ℝ) (v : ℝ) : Prop :=
  match X with
  | .sparse S =>
    match Y.FlGather u with
    | some g => ∃ w, g (S.entries.map Prod.fst) w ∧ FlVdot u w (S.entries.map Prod.snd) v
    | none => FlDotRev u Y X v
  | .tt A =>
    match Y with
    | .tt B => A.FlDot u B v
    | _ => FlDotRev u Y X v
  | _ => FlDotRev u Y X v

end Leaf

/-- `tensor.py` 633-637: `TensorSum.to_numpy`. -/
def TSum.FlToNumpy (u : ℝ) (X : TSum ℝ) (B : ND ℝ) : Prop :=
  flFold (fun s (t : Leaf ℝ) s' => ∃ A, t.FlToNumpy u A ∧ FlAdd u s A s') (ND.zeros X.shape)
    X.tensors B

/-- `to_numpy` of leaves and lazy sums. -/
def Tensor.FlToNumpy (u : ℝ) : Tensor ℝ → ND ℝ → Prop
  | .leaf X, B => X.FlToNumpy u B
  | .sum X, B => X.FlToNumpy u B

/-- `sum(f(X) for X in xs)` (python's `sum`, starting with `0`), each summand being any floating
point result of `f`. -/
def flSum {α : Type*} (u : ℝ) (f : α → ℝ → Prop) (xs : List α) (v : ℝ) : Prop :=
  flFold (fun s x s' => ∃ w δ, f x w ∧ |δ| ≤ u ∧ s' = (s + w) * (1 + δ)) 0 xs v

/-- `X.dot(Y)` and `X @ Y` (`tensor.py` 121-129, 136-137, 250-255, 542-557, 670-671). -/
def Tensor.FlDot (u : ℝ) : Tensor ℝ → Tensor ℝ → ℝ → Prop
  | .leaf X, .leaf Y, v => X.FlDot u Y v
  | .leaf X, .sum Y, v => flSum u (fun t : Leaf ℝ => t.FlDot u X) Y.tensors v
  | .sum X, .leaf Y, v => flSum u (fun t : Leaf ℝ => t.FlDot u Y) X.tensors v
  | .sum X, .sum Y, v => flSum u (fun t : Leaf ℝ => flSum u (fun s : Leaf ℝ => s.FlDot u t) Y.tensors)
      X.tensors v

/-- `X.norm()`: `tensor.py` 131-134 (`np.sqrt(np.abs(self.dot(self)))`) for all formats but sparse
tensors (241-242, `np.linalg.norm` of the entries: a rounded square root of a sum of squares) and
tensor trains (442-444, not modelled here: it needs a QR decomposition). -/
def Tensor.FlNorm (u : ℝ) (X : Tensor ℝ) (v : ℝ) : Prop :=
  match X with
  | .leaf (.sparse S) => ∃ w δ, FlVdot u (S.entries.map Prod.snd) (S.entries.map Prod.snd) w ∧
      |δ| ≤ u ∧ v = √w * (1 + δ)
  | .leaf (.tt _) => False
  | X => ∃ w δ, X.FlDot u X w ∧ |δ| ≤ u ∧ v = √|w| * (1 + δ)

end TTS
