import Verif.Model.Tensor

/-!
# What the tensor formats mean

Textbook formulas for the entries of each format, and well-formedness of the stored data.
-/

namespace TTS

open Finset

variable {K : Type*}

/-- `TTChain r cores s`: the cores are order-3 arrays with matching bond dimensions, starting with
`r` and ending with `s`. -/
def TTChain [Zero K] : ℕ → List (ND K) → ℕ → Prop
  | r, [], s => r = s
  | r, C :: Cs, s => ∃ n t, C.shape = [r, n, t] ∧ TTChain t Cs s

/-- Entry `(a, b)` of the product of core slices `C₁[:, i₁, :] ⋯ C_d[:, i_d, :]`. -/
def ttVal [CommSemiring K] : List (ND K) → List ℕ → ℕ → ℕ → K
  | [], [], a, b => if a = b then 1 else 0
  | C :: Cs, i :: is, a, b => ∑ t ∈ range (C.dim 2), C.get [a, i, t] * ttVal Cs is t b
  | _, _, _, _ => 0

/-- Entry of a tensor train: the `1 × 1` product of its core slices. -/
def ttEntry [CommSemiring K] (X : TT K) (idx : List ℕ) : K := ttVal X.cores idx 0 0

/-- Product of the entries `C_k[i_k, r]`. -/
def cpProd [CommSemiring K] : List (ND K) → List ℕ → ℕ → K
  | [], [], _ => 1
  | C :: Cs, i :: is, r => C.get [i, r] * cpProd Cs is r
  | _, _, _ => 0

/-- Entry of a CP tensor: sum over components of products of factor entries. -/
def cpEntry [CommSemiring K] (X : CP K) (idx : List ℕ) : K :=
  ∑ r ∈ range X.rank, cpProd X.cores idx r

/-- Product of the entries `U_k[q_k, i_k]`. -/
def facProd [CommSemiring K] : List (ND K) → List ℕ → List ℕ → K
  | [], [], [] => 1
  | U :: Us, q :: qs, i :: is => U.get [q, i] * facProd Us qs is
  | _, _, _ => 0

/-- Entry of a Tucker tensor: multilinear contraction of the core with the factors. -/
def tuckerEntry [CommSemiring K] (X : Tucker K) (idx : List ℕ) : K :=
  sumIdx X.rank fun q => X.core.get q * facProd X.factors q idx

/-- Entry of a sparse tensor: the sum of the values stored for that index. -/
def sparseEntry [AddCommMonoid K] (X : Sparse K) (idx : List ℕ) : K :=
  (X.entries.map fun e => if e.1 = idx then e.2 else 0).sum

/-- Well-formed tensor train: at least one core, matching bonds, outer bonds `1`. -/
def TT.Valid [Zero K] (X : TT K) : Prop := X.cores ≠ [] ∧ TTChain 1 X.cores 1

/-- Well-formed CP tensor: at least one factor, all with the same number of columns. -/
def CP.Valid [Zero K] (X : CP K) : Prop :=
  X.cores ≠ [] ∧ ∀ C ∈ X.cores, ∃ n, C.shape = [n, X.rank]

/-- Well-formed Tucker tensor: matrix factors whose row counts are the core's shape. -/
def Tucker.Valid [Zero K] (X : Tucker K) : Prop :=
  (∀ U ∈ X.factors, ∃ s n, U.shape = [s, n]) ∧ X.core.shape = X.rank

/-- Well-formed sparse tensor: all indices in range. -/
def Sparse.Valid (X : Sparse K) : Prop := ∀ e ∈ X.entries, InR X.shape e.1

/-- No index is stored twice. -/
def Sparse.Distinct (X : Sparse K) : Prop := (X.entries.map Prod.fst).Nodup

/-- Well-formed tensor of any format. -/
def Leaf.Valid [Zero K] : Leaf K → Prop
  | .dense _ => True
  | .sparse X => X.Valid
  | .tt X => X.Valid
  | .cp X => X.Valid
  | .tucker X => X.Valid

/-- No sparse tensor with a repeated index. -/
def Leaf.Distinct [Zero K] : Leaf K → Prop
  | .sparse X => X.Distinct
  | _ => True

/-- Well-formed lazy sum: well-formed summands, all of the declared shape. -/
def TSum.Valid [Zero K] (X : TSum K) : Prop := ∀ t ∈ X.tensors, t.Valid ∧ t.shape = X.shape

def Tensor.Valid [Zero K] : Tensor K → Prop
  | .leaf X => X.Valid
  | .sum X => X.Valid

def Tensor.Distinct [Zero K] : Tensor K → Prop
  | .leaf X => X.Distinct
  | .sum X => ∀ t ∈ X.tensors, t.Distinct

/-- A lazy sum with at least one summand (the empty one cannot be built by `TensorSum([])`). -/
def Tensor.NonEmpty [Zero K] : Tensor K → Prop
  | .leaf _ => True
  | .sum X => X.tensors ≠ []

/-- Sum of entrywise products of two arrays: the Euclidean inner product. -/
def innerND [CommSemiring K] (A B : ND K) : K := sumIdx A.shape fun i => A.get i * B.get i

end TTS
