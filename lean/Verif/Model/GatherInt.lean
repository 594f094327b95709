import Verif.Model.Tensor

/-!
# `gather` with arbitrary integer indices

`Model/Tensor.lean` models `gather` for indices in range.  Here indices are arbitrary integers and the index argument may
have too few or too many rows: `m` is the number of rows (one per mode) and `cols` lists the columns, all of length `m`.
Simplifications: the rows have equal lengths (no broadcasting) and are given as a tuple of arrays.
-/

namespace TTS

open Finset

variable {K : Type*}

/-- numpy's treatment of one integer index of an axis of size `n` in `a[ids]` and in `np.take(a, ids, axis=0)`
(`tensor.py` 429-431, 731): negative indices count from the end, `none` is an `IndexError`. -/
def wrapIdx (n : ℕ) (i : ℤ) : Option ℕ :=
  if 0 ≤ i ∧ i < n then some i.toNat else if -(n : ℤ) ≤ i ∧ i < 0 then some (i + n).toNat else none

/-- `np.ravel_multi_index(indices, shape)` does not raise (`tensor.py` 281): one row per mode, no stride product beyond
the largest 64-bit integer, every index in range. -/
def ravelOk (shape : List ℕ) (m : ℕ) (cols : List (List ℤ)) : Bool :=
  decide (m = shape.length) && (List.range (shape.length + 1)).all (fun k => decide ((shape.drop k).prod < 2 ^ 63)) &&
    cols.all fun c => (c.zip shape).all fun p => decide (0 ≤ p.1 ∧ p.1 < p.2)

/-- `tensor.py` 275-286: `SparseTensor.gather`. -/
def Sparse.gatherZ [Zero K] (X : Sparse K) (m : ℕ) (cols : List (List ℤ)) : Except PyErr (List K) :=
  if ravelOk X.shape m cols then .ok (X.gather (cols.map fun c => c.map Int.toNat)) else .error .valueError

/-- `tensor.py` 432-439: one round of the loop of `TensorTrain.gather`.  `idx_array[i]` is only evaluated inside the loop
over `j`. -/
def TT.gatherStepZ [CommSemiring K] (m : ℕ) (cols : List (List ℤ)) (result : ND K) (Ci : ND K × ℕ) :
    Except PyErr (ND K) :=
  let C := Ci.1
  let i := Ci.2
  if C.dim 1 = 0 then .ok (ND.zeros [cols.length, C.dim 2])
  else if m ≤ i then .error .indexError
  else .ok <| (List.range (C.dim 1)).foldl (fun next (j : ℕ) =>
      ND.ofFn next.shape fun nr =>
        if (cols.getD (nr.getD 0 0) []).getD i 0 = (j : ℤ) then
          ∑ t ∈ range (result.dim 1), result.get [nr.getD 0 0, t] * C.get [t, j, nr.getD 1 0]
        else next.get nr)
    (ND.zeros [cols.length, C.dim 2])

/-- `tensor.py` 414-440: `TensorTrain.gather`.  Without rows `np.stack` raises `ValueError`. -/
def TT.gatherZ [CommSemiring K] (X : TT K) (m : ℕ) (cols : List (List ℤ)) : Except PyErr (List K) :=
  if m = 0 then .error .valueError else
  match X.cores with
  | [] => .error .indexError
  | C :: Cs =>
    let M := C.reshape C.shape.tail
    match cols.mapM fun c => wrapIdx (M.dim 0) (c.getD 0 0) with
    | none => .error .indexError
    | some ks => do
      let result := ND.ofFn [cols.length, M.dim 1] fun nr => M.get [ks.getD (nr.getD 0 0) 0, nr.getD 1 0]
      let result ← (Cs.zipIdx 1).foldlM (TT.gatherStepZ m cols) result
      let flat := result.reshape [result.shape.prod]
      return (List.range flat.size).map fun n => flat.get [n]

/-- `tensor.py` 726-732: `CPTensor.gather`.  `zip` stops at the shorter of factors and rows; without rows `np.sum(1, axis=1)`
raises `AxisError`, an `IndexError`.  Simplification: the indices of all factors are checked before anything is
multiplied. -/
def CP.gatherZ [CommSemiring K] (X : CP K) (m : ℕ) (cols : List (List ℤ)) : Except PyErr (List K) :=
  if m = 0 then .error .indexError else
  match cols.mapM fun c => (X.cores.zip c).mapM fun p => wrapIdx (p.1.dim 0) p.2 with
  | none => .error .indexError
  | some idxs => .ok (X.gather idxs)

end TTS
