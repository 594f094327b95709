import Verif.NDLemmas
import Verif.Model.Ranks

/-!
# Model of the tensor formats (`tt_sketch/tensor.py`)

Scalars are elements of a commutative ring (field where the code divides); arithmetic is exact.
numpy's own exceptions on ill-formed data (mismatching shapes inside one object, indices out of
range) are not modelled: the properties range over well-formed objects (`Valid`).
-/

namespace TTS

open Finset

namespace ND
variable {K : Type*}

/-- `A[i] = v` (one entry). -/
def setEntry [Zero K] (A : ND K) (i : List ℕ) (v : K) : ND K :=
  ofFn A.shape fun j => if j = i then v else A.get j

/-- `np.sum(A, axis=-1)`. -/
def sumLast [AddCommMonoid K] (A : ND K) : ND K :=
  ofFn A.shape.dropLast fun i => ∑ t ∈ range (A.shape.getLastD 0), A.get (i ++ [t])

/-- `np.sum(A)`. -/
def total [AddCommMonoid K] (A : ND K) : K := sumIdx A.shape A.get

/-- `np.concatenate((A, B), axis=2)` for arrays with three axes. -/
def concat2 [Zero K] (A B : ND K) : ND K :=
  ofFn [A.dim 0, A.dim 1, A.dim 2 + B.dim 2] fun i =>
    if i.getD 2 0 < A.dim 2 then A.get i else B.get [i.getD 0 0, i.getD 1 0, i.getD 2 0 - A.dim 2]

/-- `np.concatenate((A, B), axis=0)` for arrays with three axes. -/
def concat0 [Zero K] (A B : ND K) : ND K :=
  ofFn [A.dim 0 + B.dim 0, A.dim 1, A.dim 2] fun i =>
    if i.getD 0 0 < A.dim 0 then A.get i else B.get [i.getD 0 0 - A.dim 0, i.getD 1 0, i.getD 2 0]

/-- `utils.py` 63-83: `matricize(A, mode, mat_shape)` with `mode` given as a tuple (an integer
mode is first turned into a one-element tuple, line 70). -/
def matricize [Zero K] (A : ND K) (mode : List ℕ) (matShape : Bool) : ND K :=
  let perm := mode ++ (List.range A.ndim).filter (fun i => i ∉ mode)
  let A' := A.transpose perm
  let right := (A'.shape.drop mode.length).prod
  let left := if matShape then [(A'.shape.take mode.length).prod] else A'.shape.take mode.length
  A'.reshape (left ++ [right])

/-- `utils.py` 86-95: `dematricize(A, mode, shape)`. -/
def dematricize [Zero K] (A : ND K) (mode : ℕ) (shape : List ℕ) : ND K :=
  let cur := A.dim 0 :: shape.eraseIdx mode
  let A' := A.reshape cur
  let perm := List.range' 1 (shape.length - 1)
  let perm := perm.take mode ++ [0] ++ perm.drop mode
  A'.transpose perm

end ND

/-! ### Sparse tensors -/

/-- `tensor.py` 185-198 `SparseTensor`: the shape, and for every stored value its multi-index (one
column of `indices`) and the value (`entries`).  Simplification: `indices` (a `d × nnz` array, or a
tuple of arrays which `__post_init__` stacks) and `entries` are zipped into one list. -/
structure Sparse (K : Type*) where
  shape : List ℕ
  entries : List (List ℕ × K)

namespace Sparse
variable {K : Type*}

/-- `tensor.py` 210-213: `nnz`. -/
def nnz (X : Sparse K) : ℕ := X.entries.length

/-- `tensor.py` 200-204: `T`, reversing shape and the rows of `indices`. -/
def T (X : Sparse K) : Sparse K :=
  ⟨X.shape.reverse, X.entries.map fun e => (e.1.reverse, e.2)⟩

/-- `tensor.py` 206-208: `size`. -/
def size (X : Sparse K) : ℕ := X.nnz * (X.shape.length + 1)

/-- `tensor.py` 236-239: `to_numpy`; `X[tuple(indices)] = entries` assigns in order, so the last
stored value for an index stays. -/
def toNumpy [Zero K] (X : Sparse K) : ND K :=
  X.entries.foldl (fun A e => A.setEntry e.1 e.2) (ND.zeros X.shape)

/-- `tensor.py` 272-273: `__mul__`. -/
def mul [Mul K] (X : Sparse K) (c : K) : Sparse K :=
  ⟨X.shape, X.entries.map fun e => (e.1, e.2 * c)⟩

/-- `tensor.py` 288-291: `dict`, from row-major positions to values; later entries overwrite. -/
def dict (X : Sparse K) : ℕ → Option K :=
  X.entries.foldl (fun d e => Function.update d (ravel X.shape e.1) (some e.2)) fun _ => none

/-- `tensor.py` 275-286: `gather` (`idxs` = the columns of `indices`). -/
def gather [Zero K] (X : Sparse K) (idxs : List (List ℕ)) : List K :=
  idxs.map fun i => (X.dict (ravel X.shape i)).getD 0

/-- `tensor.py` 215-234: the summands made by `split(n)`; summand `i` takes the slice
`i*block : (i+1)*block`, the last one up to `nnz`. -/
def splitList (X : Sparse K) (n : ℕ) : List (Sparse K) :=
  let block := X.nnz / n
  (List.range n).map fun i =>
    if i < n - 1 then ⟨X.shape, (X.entries.take ((i + 1) * block)).drop (i * block)⟩
    else ⟨X.shape, (X.entries.take X.nnz).drop (i * block)⟩

end Sparse

/-! ### Tensor trains -/

/-- `tensor.py` 294-308 `TensorTrain`: the list of cores. -/
structure TT (K : Type*) [Zero K] where
  cores : List (ND K)

namespace TT
variable {K : Type*}

section
variable [Zero K]

/-- `tensor.py` 307: `shape`. -/
def shape (X : TT K) : List ℕ := X.cores.map fun C => C.dim 1

/-- `tensor.py` 308: `rank`. -/
def rank (X : TT K) : List ℕ := X.cores.tail.map fun C => C.dim 0

/-- `tensor.py` 310-313: `T`. -/
def T (X : TT K) : TT K := ⟨X.cores.reverse.map fun C => C.transpose [2, 1, 0]⟩

/-- `tensor.py` 516-518: `size`. -/
def size (X : TT K) : ℕ := (X.cores.map fun C => C.size).sum

end

/-- `tensor.py` 315-321: `to_numpy`.  (`cores = []` makes python raise; excluded by validity.) -/
def toNumpy [CommSemiring K] (X : TT K) : ND K :=
  match X.cores with
  | [] => ND.zeros []
  | C :: Cs =>
    let A := C.reshape C.shape.tail
    let A := Cs.foldl ND.es_ej_jkl A
    A.reshape A.shape.dropLast

/-- `tensor.py` 507-512: `__mul__` (and `__rmul__`, 514): the last core is scaled.  The `deepcopy`
makes the other cores independent copies, which is invisible here. -/
def mul [MulZeroClass K] (X : TT K) (c : K) : TT K :=
  ⟨X.cores.dropLast ++ (X.cores.getLast?.map fun C => C.smul c).toList⟩

/-- `tensor.py` 520-540: `add`, direct sums of cores. -/
def add [Zero K] (X Y : TT K) : TT K :=
  let first := ND.concat2 (X.cores.headD (ND.zeros [])) (Y.cores.headD (ND.zeros []))
  let mid := List.zipWith (fun C1 C2 =>
      let zeros1 := ND.zeros [C1.dim 0, C1.dim 1, C2.dim 2]
      let zeros2 := ND.zeros [C2.dim 0, C1.dim 1, C1.dim 2]
      let row1 := ND.concat2 C1 zeros1
      let row2 := ND.concat2 zeros2 C2
      ND.concat0 row1 row2) X.cores.tail.dropLast Y.cores.tail.dropLast
  let last := ND.concat0 (X.cores.getLastD (ND.zeros [])) (Y.cores.getLastD (ND.zeros []))
  ⟨first :: mid ++ [last]⟩

/-- `tensor.py` 542-555: the branch of `dot` for two tensor trains. -/
def dot [CommSemiring K] (X Y : TT K) : K :=
  let init := ND.es_ijk_ljm_km (X.cores.headD (ND.zeros [])) (Y.cores.headD (ND.zeros []))
  let res := (X.cores.tail.zip Y.cores.tail).foldl
    (fun R p => ND.es_ij_ika_jkb_ab R p.1 p.2) init
  res.total

/-- `tensor.py` 431-439: the inner loop of `gather` for core `C` (number `i`): for every `j` the
rows whose `i`-th index is `j` become `result[row] @ C[:, j, :]`. -/
def gatherStep [CommSemiring K] (idxs : List (List ℕ)) (result : ND K) (Ci : ND K × ℕ) : ND K :=
  let C := Ci.1
  let i := Ci.2
  (List.range (C.dim 1)).foldl (fun next j =>
      ND.ofFn next.shape fun nr =>
        if (idxs.getD (nr.getD 0 0) []).getD i 0 = j then
          ∑ t ∈ range (result.dim 1), result.get [nr.getD 0 0, t] * C.get [t, j, nr.getD 1 0]
        else next.get nr)
    (ND.zeros [idxs.length, C.dim 2])

/-- `tensor.py` 414-440: `gather`; `idxs` is the list of columns of the index array. -/
def gather [CommSemiring K] (X : TT K) (idxs : List (List ℕ)) : List K :=
  match X.cores with
  | [] => []
  | C :: Cs =>
    let M := C.reshape C.shape.tail
    let result := ND.ofFn [idxs.length, M.dim 1]
      fun nr => M.get [(idxs.getD (nr.getD 0 0) []).getD 0 0, nr.getD 1 0]
    let result := (Cs.zipIdx 1).foldl (gatherStep idxs) result
    let flat := result.reshape [result.shape.prod]
    (List.range flat.size).map fun n => flat.get [n]

/-- `tensor.py` 380-388: `zero(shape, rank)`. -/
def zero [Zero K] (shape : List ℕ) (rank : RankArg) : Except PyErr (TT K) :=
  match processTTRank rank shape false with
  | .error e => .error e
  | .ok r => .ok ⟨List.zipWith (fun a b => ND.zeros [a.1, a.2, b])
      ((1 :: r).zip shape) (r ++ [1])⟩

/-- `tensor.py` 390-397, 406: `partial_dense("lr")`. -/
def partialDenseLR [CommSemiring K] (X : TT K) : List (ND K) :=
  match X.cores with
  | [] => []
  | C :: Cs =>
    let P := C.reshape [C.dim 0 * C.dim 1, C.dim 2]
    (Cs.dropLast.foldl (fun (st : ND K × List (ND K)) core =>
      let N := ND.es_ij_jkl_ikl st.1 core
      let N := N.reshape [N.dim 0 * N.dim 1, N.dim 2]
      (N, st.2 ++ [N])) (P, [P])).2

/-- `tensor.py` 398-406: `partial_dense("rl")`; `cores[-2:0:-1]` is the reverse of `cores[1:-1]`. -/
def partialDenseRL [CommSemiring K] (X : TT K) : List (ND K) :=
  match X.cores.reverse with
  | [] => []
  | C :: _ =>
    let P := C.reshape [C.dim 0, C.dim 1 * C.dim 2]
    (X.cores.tail.dropLast.reverse.foldl (fun (st : ND K × List (ND K)) core =>
      let N := ND.es_ijk_kl_ijl core st.1
      let N := N.reshape [N.dim 0, N.dim 1 * N.dim 2]
      (N, st.2 ++ [N])) (P, [P])).2

end TT

/-! ### CP tensors -/

/-- `tensor.py` 674-686 `CPTensor`: factor matrices of shape `(n, rank)`. -/
structure CP (K : Type*) [Zero K] where
  cores : List (ND K)

namespace CP
variable {K : Type*}

section
variable [Zero K]

/-- `tensor.py` 686: `shape`. -/
def shape (X : CP K) : List ℕ := X.cores.map fun C => C.dim 0

/-- `tensor.py` 685: `rank`. -/
def rank (X : CP K) : ℕ := (X.cores.headD (ND.zeros [])).dim 1

/-- `tensor.py` 688-689: the value of `size()` (a method, not a property). -/
def sizeCall (X : CP K) : ℕ := (X.cores.map fun C => C.size).sum

/-- `tensor.py` 691-694: `T`. -/
def T (X : CP K) : CP K := ⟨X.cores.reverse⟩

end

/-- `tensor.py` 696-703: `to_numpy`. -/
def toNumpy [CommSemiring K] (X : CP K) : ND K :=
  match X.cores with
  | [] => ND.zeros []
  | C :: Cs => (Cs.foldl ND.es_ej_ij C).sumLast

/-- `tensor.py` 740-743: `__mul__` (first factor scaled). -/
def mul [MulZeroClass K] (X : CP K) (c : K) : CP K :=
  match X.cores with
  | [] => ⟨[]⟩
  | C :: Cs => ⟨C.smul c :: Cs⟩

/-- `tensor.py` 726-732: `gather`: product of the selected factor rows, summed over the rank. -/
def gather [CommSemiring K] (X : CP K) (idxs : List (List ℕ)) : List K :=
  idxs.map fun i => ∑ r ∈ range X.rank,
    (X.cores.zip i).foldl (fun res p => res * p.1.get [p.2, r]) 1

end CP

/-! ### Tucker tensors -/

/-- `tensor.py` 746-758 `TuckerTensor`: factors of shape `(s, n)` and the core. -/
structure Tucker (K : Type*) [Zero K] where
  factors : List (ND K)
  core : ND K

namespace Tucker
variable {K : Type*}

section
variable [Zero K]

/-- `tensor.py` 757: `shape`. -/
def shape (X : Tucker K) : List ℕ := X.factors.map fun U => U.dim 1

/-- `tensor.py` 758: `rank`. -/
def rank (X : Tucker K) : List ℕ := X.factors.map fun U => U.dim 0

/-- `tensor.py` 760-765: `T`. -/
def T (X : Tucker K) : Tucker K :=
  ⟨X.factors.reverse, X.core.transpose (List.range X.shape.length).reverse⟩

/-- `tensor.py` 767-769: `size`. -/
def size (X : Tucker K) : ℕ := X.core.size + (X.factors.map fun U => U.size).sum

/-- `tensor.py` 782-784: `__mul__`. -/
def mul {K : Type*} [MulZeroClass K] (X : Tucker K) (c : K) : Tucker K :=
  ⟨X.factors, X.core.smul c⟩

end

/-- `tensor.py` 771-780: `to_numpy`. -/
def toNumpy [CommSemiring K] (X : Tucker K) : ND K :=
  let A := X.factors.zipIdx.foldl (fun A (Ui : ND K × ℕ) =>
    let left := (X.shape.take Ui.2).prod
    let right := (X.rank.drop (Ui.2 + 1)).prod
    ND.es_ijk_jl_ilk (A.reshape [left, X.rank.getD Ui.2 0, right]) Ui.1) X.core
  A.reshape X.shape

end Tucker

/-! ### All formats -/

/-- The concrete tensor classes other than `TensorSum`.  `DenseTensor` (`tensor.py` 140-146) is
its array. -/
inductive Leaf (K : Type*) [Zero K]
  | dense (X : ND K)
  | sparse (X : Sparse K)
  | tt (X : TT K)
  | cp (X : CP K)
  | tucker (X : Tucker K)

namespace Leaf
variable {K : Type*}

/-- the attribute `shape` of each class (`tensor.py` 145, 188, 307, 686, 757) -/
def shape [Zero K] : Leaf K → List ℕ
  | dense X => X.shape
  | sparse X => X.shape
  | tt X => X.shape
  | cp X => X.shape
  | tucker X => X.shape

/-- the property `T` of each class (`tensor.py` 161-165, 200, 310, 691, 760) -/
def T [Zero K] : Leaf K → Leaf K
  | dense X => dense (X.transpose (List.range X.ndim).reverse)
  | sparse X => sparse X.T
  | tt X => tt X.T
  | cp X => cp X.T
  | tucker X => tucker X.T

/-- `to_numpy` of each class (`tensor.py` 171-172, 236, 315, 696, 771) -/
def toNumpy [CommSemiring K] : Leaf K → ND K
  | dense X => X
  | sparse X => X.toNumpy
  | tt X => X.toNumpy
  | cp X => X.toNumpy
  | tucker X => X.toNumpy

/-- `__mul__` of each class (`tensor.py` 177-178, 272, 507, 740, 782); `__rmul__` (109-110, 514)
calls it. -/
def mul [CommSemiring K] : Leaf K → K → Leaf K
  | dense X, c => dense (X.smul c)
  | sparse X, c => sparse (X.mul c)
  | tt X, c => tt (X.mul c)
  | cp X, c => cp (X.mul c)
  | tucker X, c => tucker (X.mul c)

/-- The attribute `size` of each class (`tensor.py` 167-169, 206, 516, 688, 767).  `none` for
`CPTensor`, whose `size` lacks the `@property` decorator and so is a bound method, not a number. -/
def size? [Zero K] : Leaf K → Option ℕ
  | dense X => some X.shape.prod
  | sparse X => some X.size
  | tt X => some X.size
  | cp _ => none
  | tucker X => some X.size

/-- `gather` where the class defines it (`tensor.py` 275, 414, 726); `none` = `AttributeError`. -/
def gather? [CommSemiring K] : Leaf K → Option (List (List ℕ) → List K)
  | sparse X => some X.gather
  | tt X => some X.gather
  | cp X => some X.gather
  | dense _ => none
  | tucker _ => none

/-- `np.dot(u, v)` for vectors. -/
def vdot [CommSemiring K] (u v : List K) : K := (List.zipWith (· * ·) u v).sum

/-- `tensor.py` 127-129: dense inner product, `np.dot` of the flattened arrays. -/
def denseDot [CommSemiring K] (X Y : Leaf K) : K :=
  ∑ n ∈ range X.toNumpy.shape.prod,
    (X.toNumpy.reshape [X.toNumpy.shape.prod]).get [n]
      * (Y.toNumpy.reshape [Y.toNumpy.shape.prod]).get [n]

/-- `X.dot(Y, reverse=True)` for `Y` not a `TensorSum`: `tensor.py` 121-129 (base class), 250-255
(`SparseTensor`: uses `gather` of the other, falling back on `AttributeError`), 542-557
(`TensorTrain`). -/
def dotRev [CommSemiring K] (X Y : Leaf K) : K :=
  match X with
  | sparse S =>
    match Y.gather? with
    | some g => vdot (g (S.entries.map Prod.fst)) (S.entries.map Prod.snd)
    | none => denseDot X Y
  | tt A =>
    match Y with
    | tt B => A.dot B
    | _ => denseDot X Y
  | _ => denseDot X Y

/-- `X.dot(Y, reverse=False)` for `Y` not a `TensorSum` (same lines). -/
def dot [CommSemiring K] (X Y : Leaf K) : K :=
  match X with
  | sparse S =>
    match Y.gather? with
    | some g => vdot (g (S.entries.map Prod.fst)) (S.entries.map Prod.snd)
    | none => dotRev Y X
  | tt A =>
    match Y with
    | tt B => A.dot B
    | _ => dotRev Y X
  | _ => dotRev Y X

end Leaf

/-- `tensor.py` 612-622 `TensorSum`.  Simplification: summands are not themselves `TensorSum`s.
(`+` and `+=` always flatten, so only a direct call of the constructor could nest them.) -/
structure TSum (K : Type*) [Zero K] where
  shape : List ℕ
  tensors : List (Leaf K)

namespace TSum
variable {K : Type*}

section
variable [Zero K]

/-- `tensor.py` 618-622: `TensorSum(tensors)` without `shape`: `tensors[0].shape`. -/
def mk? (ts : List (Leaf K)) : Except PyErr (TSum K) :=
  match ts with
  | [] => .error .indexError
  | t :: _ => .ok ⟨t.shape, ts⟩

/-- `tensor.py` 628-631: `T`. -/
def T (X : TSum K) : Except PyErr (TSum K) := mk? (X.tensors.map Leaf.T)

/-- `tensor.py` 624-626: `size`; adding a bound method to an integer raises `TypeError`. -/
def size (X : TSum K) : Except PyErr ℕ :=
  X.tensors.foldlM (fun acc t =>
    match t.size? with
    | some n => .ok (acc + n)
    | none => .error .typeError) 0

end

/-- `tensor.py` 633-637: `to_numpy`. -/
def toNumpy [CommSemiring K] (X : TSum K) : ND K :=
  X.tensors.foldl (fun s t => s.add t.toNumpy) (ND.zeros X.shape)

/-- The second argument of `TensorSum.__mul__`: a number or a sequence of numbers. -/
inductive MulArg (K : Type*)
  | scalar (c : K)
  | seq (cs : List K)

/-- `tensor.py` 662-668: `__mul__`.  `zip(..., strict=True)` raises `TypeError` for a number (then
every summand is scaled) and `ValueError` when the lengths differ. -/
def mul [CommSemiring K] (X : TSum K) : MulArg K → Except PyErr (TSum K)
  | .scalar c => mk? (X.tensors.map fun t => t.mul c)
  | .seq cs =>
    if X.tensors.length = cs.length then mk? (List.zipWith Leaf.mul X.tensors cs)
    else .error .valueError

end TSum

/-- Any tensor. -/
inductive Tensor (K : Type*) [Zero K]
  | leaf (X : Leaf K)
  | sum (X : TSum K)

namespace Tensor
variable {K : Type*}

/-- attribute `shape` -/
def shape [Zero K] : Tensor K → List ℕ
  | leaf X => X.shape
  | sum X => X.shape

/-- property `T` -/
def T [Zero K] : Tensor K → Except PyErr (Tensor K)
  | leaf X => .ok (leaf X.T)
  | sum X => X.T.map sum

/-- `to_numpy` -/
def toNumpy [CommSemiring K] : Tensor K → ND K
  | leaf X => X.toNumpy
  | sum X => X.toNumpy

/-- the summands that `+` puts into the new list -/
def summands [Zero K] : Tensor K → List (Leaf K)
  | leaf X => [X]
  | sum X => X.tensors

/-- `tensor.py` 93-103 (`Tensor.__add__`) and 639-643 (`TensorSum.__add__`). -/
def add [Zero K] : Tensor K → Tensor K → Except PyErr (Tensor K)
  | leaf X, leaf Y => (TSum.mk? [X, Y]).map sum
  | leaf X, sum Y => (TSum.mk? ([X] ++ Y.tensors)).map sum
  | sum X, leaf Y => (TSum.mk? (X.tensors ++ [Y])).map sum
  | sum X, sum Y => (TSum.mk? (X.tensors ++ Y.tensors)).map sum

/-- `*` with a number, either side (`tensor.py` 105-110). -/
def mul [CommSemiring K] : Tensor K → K → Except PyErr (Tensor K)
  | leaf X, c => .ok (leaf (X.mul c))
  | sum X, c => (X.mul (.scalar c)).map sum

/-- `tensor.py` 118-119: `__neg__` is `self * -1`. -/
def neg [CommRing K] (X : Tensor K) : Except PyErr (Tensor K) := X.mul (-1)

/-- `tensor.py` 115-116: `__sub__` is `self + (-other)`. -/
def sub [CommRing K] (X Y : Tensor K) : Except PyErr (Tensor K) :=
  match Y.neg with
  | .error e => .error e
  | .ok nY => X.add nY

/-- `tensor.py` 112-113: `__truediv__` is `self * (1 / other)`; python raises
`ZeroDivisionError` for `1 / 0`. -/
def div [Field K] [DecidableEq K] (X : Tensor K) (c : K) : Except PyErr (Tensor K) :=
  if c = 0 then .error .zeroDivisionError else X.mul (1 / c)

/-- `Leaf.dot(TensorSum)`: `tensor.py` 123-124, `other.dot(self)`; for a `SparseTensor` or
`TensorTrain` left operand the base method is reached as well, as a `TensorSum` has no `gather` and
is no `TensorTrain`.  Then `tensor.py` 670-671 sums over the summands. -/
def dotLeafSum [CommSemiring K] (X : Leaf K) (Y : TSum K) : K :=
  (Y.tensors.map fun t => t.dot X).foldl (· + ·) 0

/-- `X.dot(Y)` and `X @ Y` (`tensor.py` 121-129, 136-137, 250-255, 542-557, 670-671). -/
def dot [CommSemiring K] : Tensor K → Tensor K → K
  | leaf X, leaf Y => X.dot Y
  | leaf X, sum Y => dotLeafSum X Y
  | sum X, leaf Y => (X.tensors.map fun t => t.dot Y).foldl (· + ·) 0
  | sum X, sum Y => (X.tensors.map fun t => dotLeafSum t Y).foldl (· + ·) 0

end Tensor

/-- `tensor.py` 148-159: `DenseTensor.to_sparse`. -/
def ND.toSparse {K : Type*} [Zero K] (X : ND K) : Sparse K :=
  ⟨X.shape, (allIdx X.shape).zip
    ((List.range X.shape.prod).map fun n => (X.reshape [X.shape.prod]).get [n])⟩

/-- `tensor.py` 215-234: `SparseTensor.split(n)`; `nnz // 0` raises `ZeroDivisionError`. -/
def Sparse.split {K : Type*} [Zero K] (X : Sparse K) (n : ℕ) : Except PyErr (TSum K) :=
  if n = 0 then .error .zeroDivisionError else TSum.mk? ((X.splitList n).map Leaf.sparse)

end TTS
