import Verif.Idx

/-!
# A model of numpy arrays

`ND K` models `np.ndarray`: a shape and the entries.  The entry function is total and `0` outside
the shape, so that equality of `ND`s is equality of arrays.  Only the numpy operations that
tt-sketch uses are modelled, each on the domain on which numpy defines it without broadcasting.
-/

namespace TTS

open Finset

/-- Python exceptions that the modelled code can raise (constructor = exception class). -/
inductive PyErr
  | valueError
  | typeError
  | indexError
  | attributeError
  | nameError
  | unboundLocalError
  | zeroDivisionError
  | notImplemented
  | linAlgError
  | runtimeError
  | stopIteration
  | assertionError
  /-- not an exception: the code goes on computing with `inf` or `nan`, which is not modelled any further -/
  | nonFinite
  deriving DecidableEq, Repr

/-- numpy array. -/
structure ND (K : Type*) [Zero K] where
  /-- `A.shape` -/
  shape : List ℕ
  /-- `A[i]` for a full multi-index -/
  get : List ℕ → K
  /-- entries exist only inside the shape -/
  supp : ∀ i, ¬ InR shape i → get i = 0

namespace ND

variable {K : Type*}

section zero
variable [Zero K]

/-- Array of the given shape with the given entries. -/
def ofFn (s : List ℕ) (f : List ℕ → K) : ND K where
  shape := s
  get i := if InR s i then f i else 0
  supp _ h := if_neg h

@[simp] theorem ofFn_shape (s : List ℕ) (f : List ℕ → K) : (ofFn s f).shape = s := rfl

theorem ofFn_get {s : List ℕ} {f : List ℕ → K} {i : List ℕ} (h : InR s i) :
    (ofFn s f).get i = f i := if_pos h

theorem ofFn_get' (s : List ℕ) (f : List ℕ → K) (i : List ℕ) :
    (ofFn s f).get i = if InR s i then f i else 0 := rfl

theorem ext' {A B : ND K} (hs : A.shape = B.shape) (hg : ∀ i, InR A.shape i → A.get i = B.get i) :
    A = B := by
  have hget : A.get = B.get := by
    funext i
    by_cases h : InR A.shape i
    · exact hg i h
    · rw [A.supp i h, B.supp i (hs ▸ h)]
  cases A; cases B; simp only at hs hget; subst hs; subst hget; rfl

theorem ofFn_congr {s : List ℕ} {f g : List ℕ → K} (h : ∀ i, InR s i → f i = g i) :
    ofFn s f = ofFn s g :=
  ext' rfl fun i hi => by
    have hi' : InR s i := hi
    rw [ofFn_get hi', ofFn_get hi', h i hi']

@[simp] theorem ofFn_self (A : ND K) : ofFn A.shape A.get = A :=
  ext' rfl fun _ hi => ofFn_get hi

/-- `A.shape[k]`. -/
def dim (A : ND K) (k : ℕ) : ℕ := A.shape.getD k 0

/-- `A.size` (number of entries). -/
def size (A : ND K) : ℕ := A.shape.prod

/-- `A.ndim`. -/
def ndim (A : ND K) : ℕ := A.shape.length

/-- `np.zeros(s)`. -/
def zeros (s : List ℕ) : ND K := ofFn s fun _ => 0

@[simp] theorem zeros_shape (s : List ℕ) : (zeros s : ND K).shape = s := rfl
@[simp] theorem zeros_get (s i : List ℕ) : (zeros s : ND K).get i = 0 := by
  simp [zeros, ofFn_get']

/-- `A.reshape(s)` (C order: the row-major position of every entry is kept).  numpy raises
`ValueError` when the sizes differ; that check is made by `reshape?`. -/
def reshape (A : ND K) (s : List ℕ) : ND K :=
  ofFn s fun i => A.get (unravel A.shape (ravel s i))

/-- `A.reshape(s)` with numpy's size check. -/
def reshape? (A : ND K) (s : List ℕ) : Except PyErr (ND K) :=
  if A.shape.prod = s.prod then .ok (A.reshape s) else .error .valueError

@[simp] theorem reshape_shape (A : ND K) (s : List ℕ) : (A.reshape s).shape = s := rfl

theorem reshape_get {A : ND K} {s i : List ℕ} (hi : InR s i) :
    (A.reshape s).get i = A.get (unravel A.shape (ravel s i)) := ofFn_get hi

/-- Reshape keeps row-major positions. -/
theorem reshape_get_of_ravel {A : ND K} {s i j : List ℕ} (hi : InR s i) (hj : InR A.shape j)
    (h : ravel s i = ravel A.shape j) : (A.reshape s).get i = A.get j := by
  rw [reshape_get hi, h, unravel_ravel hj]

theorem reshape_self (A : ND K) : A.reshape A.shape = A :=
  ext' rfl fun i hi => by
    have hi' : InR A.shape i := hi
    rw [reshape_get hi', unravel_ravel hi']

theorem reshape_reshape {A : ND K} {s t : List ℕ} (hs : s.prod = A.shape.prod)
    (ht : t.prod = A.shape.prod) : (A.reshape s).reshape t = A.reshape t :=
  ext' rfl fun i hi => by
    have hi' : InR t i := hi
    have hlt : ravel t i < s.prod := by rw [hs, ← ht]; exact ravel_lt hi'
    rw [reshape_get hi', reshape_get hi', reshape_shape, reshape_get (unravel_inR hlt),
      ravel_unravel hlt]

/-- `np.transpose(A, perm)`: axis `k` of the result is axis `perm[k]` of `A`, i.e.
`result[i] = A[j]` with `j[perm[k]] = i[k]`. -/
def transpose (A : ND K) (perm : List ℕ) : ND K :=
  ofFn (perm.map fun a => A.dim a)
    fun i => A.get ((List.range A.ndim).map fun a => i.getD (perm.idxOf a) 0)

@[simp] theorem transpose_shape (A : ND K) (perm : List ℕ) :
    (A.transpose perm).shape = perm.map fun a => A.dim a := rfl

end zero

/-! ### Arithmetic -/

/-- `A + B` for arrays of equal shape. -/
def add [AddZeroClass K] (A B : ND K) : ND K := ofFn A.shape fun i => A.get i + B.get i

/-- `A * c` for a scalar `c`. -/
def smul [MulZeroClass K] (c : K) (A : ND K) : ND K := ofFn A.shape fun i => A.get i * c

@[simp] theorem add_shape [AddZeroClass K] (A B : ND K) : (A.add B).shape = A.shape := rfl
@[simp] theorem smul_shape [MulZeroClass K] (c : K) (A : ND K) : (A.smul c).shape = A.shape := rfl

theorem add_get [AddZeroClass K] (A B : ND K) (h : A.shape = B.shape) (i : List ℕ) :
    (A.add B).get i = A.get i + B.get i := by
  by_cases hi : InR A.shape i
  · exact ofFn_get hi
  · rw [supp (A.add B) i hi, A.supp i hi, B.supp i (h ▸ hi), add_zero]

theorem smul_get [MulZeroClass K] (c : K) (A : ND K) (i : List ℕ) :
    (A.smul c).get i = A.get i * c := by
  by_cases hi : InR A.shape i
  · exact ofFn_get hi
  · rw [supp (A.smul c) i hi, A.supp i hi, zero_mul]

/-- `A @ B` for matrices. -/
def matmul [CommSemiring K] (A B : ND K) : ND K :=
  ofFn [A.dim 0, B.dim 1]
    fun i => ∑ k ∈ range (A.dim 1), A.get [i.getD 0 0, k] * B.get [k, i.getD 1 0]

/-- `A.T` for matrices. -/
def matT [Zero K] (A : ND K) : ND K :=
  ofFn [A.dim 1, A.dim 0] fun i => A.get [i.getD 1 0, i.getD 0 0]

/-- `A[:, a:b]` for a matrix (python slices are clipped to the array). -/
def cols [Zero K] (A : ND K) (a b : ℕ) : ND K :=
  ofFn [A.dim 0, min b (A.dim 1) - a] fun i => A.get [i.getD 0 0, a + i.getD 1 0]

/-- `A[a:b]` on the first axis of a matrix (clipped). -/
def rows [Zero K] (A : ND K) (a b : ℕ) : ND K :=
  ofFn [min b (A.dim 0) - a, A.dim 1] fun i => A.get [a + i.getD 0 0, i.getD 1 0]

/-! ### einsum -/

/-- Subscript letters used in the einsum strings of the code. -/
inductive Lb
  | i | j | k | l | m | a | b
  deriving DecidableEq, Repr

/-- Axis size recorded for a label in one operand. -/
def lbGet? : List Lb → List ℕ → Lb → Option ℕ
  | y :: ls, v :: vs, x => if x = y then some v else lbGet? ls vs x
  | _, _, _ => none

/-- Size of the axis with a given label: the first operand axis carrying that label.
(numpy requires all of them to agree.) -/
def lbDim : List (List Lb × List ℕ) → Lb → ℕ
  | [], _ => 0
  | (ls, s) :: rest, x =>
    match lbGet? ls s x with
    | some d => d
    | none => lbDim rest x

/-- The labels that are summed over: those of the operands not in the output, each once. -/
def lbSummed (out : List Lb) : List Lb → List Lb
  | [] => []
  | x :: xs => if x ∈ out ∨ x ∈ xs then lbSummed out xs else x :: lbSummed out xs

/-- Value of a label under an assignment `labels ↦ values`. -/
def lbVal : List Lb → List ℕ → Lb → ℕ
  | y :: ls, v :: vs, x => if x = y then v else lbVal ls vs x
  | _, _, _ => 0

/-- `np.einsum(subscripts -> out, *ops)`: sum over all labels not in `out` of the product of the
operand entries. -/
def einsum [CommSemiring K] (ops : List (List Lb × ND K)) (out : List Lb) : ND K :=
  let dims := ops.map fun p => (p.1, p.2.shape)
  let summed := lbSummed out (ops.flatMap Prod.fst)
  ofFn (out.map (lbDim dims)) fun idx =>
    sumIdx (summed.map (lbDim dims)) fun s =>
      (ops.map fun p => p.2.get (p.1.map (lbVal (out ++ summed) (idx ++ s)))).prod

/-- `np.einsum("...<ls>,<rs>->...<out>", A, B)`: as `einsum` with leading axes of `A` carried
along. -/
def einsumE [CommSemiring K] (A : ND K) (ls : List Lb) (B : ND K) (rs : List Lb)
    (out : List Lb) : ND K :=
  let npre := A.ndim - ls.length
  let dims := [(ls, A.shape.drop npre), (rs, B.shape)]
  let summed := lbSummed out (ls ++ rs)
  ofFn (A.shape.take npre ++ out.map (lbDim dims)) fun idx =>
    sumIdx (summed.map (lbDim dims)) fun s =>
      A.get (idx.take npre ++ ls.map (lbVal (out ++ summed) (idx.drop npre ++ s)))
        * B.get (rs.map (lbVal (out ++ summed) (idx.drop npre ++ s)))

end ND
end TTS
