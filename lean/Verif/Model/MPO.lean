import Verif.Model.Numerics

/-!
# Model of linear maps in the TT format (`tt_sketch/tt_gmres.py` 30-206)

As in `Verif.Model.Tensor`, numpy's own exceptions on mismatching shapes inside one contraction are not modelled: the
properties range over maps and tensor trains of matching shapes.
-/

namespace TTS

open Finset

/-! ### Matrix product operators -/

/-- `tt_gmres.py` 41-61 `MPO`: the list of cores, arrays with four axes `(rank, in, out, rank)`. -/
structure MPO (K : Type*) [Zero K] where
  cores : List (ND K)

namespace MPO
variable {K : Type*}

section
variable [Zero K]

/-- `tt_gmres.py` 56: `in_shape`. -/
def inShape (A : MPO K) : List ℕ := A.cores.map fun C => C.dim 1

/-- `tt_gmres.py` 57: `out_shape`. -/
def outShape (A : MPO K) : List ℕ := A.cores.map fun C => C.dim 2

/-- `tt_gmres.py` 58: `rank`. -/
def rank (A : MPO K) : List ℕ := A.cores.tail.map fun C => C.dim 0

/-- `tt_gmres.py` 59-61: `shape`. -/
def shape (A : MPO K) : List ℕ := List.zipWith (· * ·) A.inShape A.outShape

/-- `tt_gmres.py` 63-65: `size`. -/
def size (A : MPO K) : ℕ := (A.cores.map fun C => C.size).sum

/-- `tt_gmres.py` 67-72: `T`. -/
def T (A : MPO K) : MPO K := ⟨A.cores.map fun C => C.transpose [0, 2, 1, 3]⟩

/-- `tt_gmres.py` 74-79: `to_tt`. -/
def toTT (A : MPO K) : TT K :=
  ⟨A.cores.map fun C => C.reshape [C.dim 0, C.dim 1 * C.dim 2, C.dim 3]⟩

end

/-- `tt_gmres.py` 81-90: `to_numpy`.  (`cores = []` makes python raise; excluded by validity.) -/
def toNumpy [CommSemiring K] (A : MPO K) : ND K :=
  match A.cores with
  | [] => ND.zeros []
  | C :: Cs =>
    let res := C.reshape C.shape.tail
    let res := Cs.foldl ND.es_ei_ijkl res
    res.reshape res.shape.dropLast

/-- `tt_gmres.py` 94-101: one core of `__call__`. -/
def callCore [CommSemiring K] (M C : ND K) : ND K :=
  let MC := ND.es_ijkl_ajb_iaklb M C
  MC.reshape [MC.dim 0 * MC.dim 1, MC.dim 2, MC.dim 3 * MC.dim 4]

/-- `tt_gmres.py` 92-102: `__call__`. -/
def call [CommSemiring K] (A : MPO K) (X : TT K) : TT K :=
  ⟨List.zipWith callCore A.cores X.cores⟩

/-- `tt_gmres.py` 122-129: `eye(shape)`. -/
def eye [Zero K] [One K] (shape : List ℕ) : MPO K :=
  ⟨shape.map fun s =>
    let C : ND K := ND.ofFn [s, s] fun i => if i.getD 0 0 = i.getD 1 0 then 1 else 0
    C.reshape [1, C.dim 0, C.dim 1, 1]⟩

/-- `tt_gmres.py` 132-133: the cores that `__mul__` writes back (`IndexError` for no cores; excluded by validity). -/
def mulCores [MulZeroClass K] (cores : List (ND K)) (c : K) : List (ND K) :=
  match cores with
  | [] => []
  | C :: Cs => C.smul c :: Cs

/-- `tt_gmres.py` 114-119: one core of `random`, from the draw `C` of `np.random.normal`; the square root and the norm
are left as the number `nrm C` the core is divided by.  `C += C.transpose(0, 2, 1, 3).reshape(C.shape)`. -/
noncomputable def randomCore (C : ND ℝ) (s1 s2 : ℕ) : ND ℝ :=
  let C := C.add ((C.transpose [0, 2, 1, 3]).reshape C.shape)
  (C.smul (√ ((s1 * s2 : ℕ) : ℝ))).smul (1 / C.frob)

/-- `tt_gmres.py` 104-120: `random(rank, in_shape, out_shape)`; `draw k` is the array of normal variates drawn for core
`k` (as a function of its multi-index). -/
noncomputable def random (draw : ℕ → List ℕ → ℝ) (rank : RankArg) (inShape outShape : List ℕ) :
    Except PyErr (MPO ℝ) :=
  match processTTRank rank (List.zipWith (· * ·) inShape outShape) true with
  | .error e => .error e
  | .ok rank =>
    .ok ⟨((((1 :: rank).zip inShape).zip (outShape.zip (rank ++ [1]))).zipIdx).map fun p =>
      randomCore (ND.ofFn [p.1.1.1, p.1.1.2, p.1.2.1, p.1.2.2] (draw p.2)) p.1.1.2 p.1.2.1⟩

end MPO

/-! ### `MPO` objects in memory

`MPO.__mul__` (`tt_gmres.py` 131-134) assigns to an element of `self.cores`, so list identity matters.  The arrays
themselves are never written to (`new_cores[0] * other` and the transposed views make new array objects). -/

/-- List objects (of cores), and the list object each `MPO` object refers to. -/
structure MPOHeap (K : Type*) [Zero K] where
  /-- `MPO` object number `a` has as `cores` the list object number `objs[a]` -/
  objs : List ℕ
  /-- contents of the list objects -/
  lists : List (List (ND K))

/-- Expressions that make a new `MPO` object from existing ones (numbered): `MPO([...])` with a fresh list, `x * c`
(also `c * x`, `-x`, `x / c`, `tensor.py` 109-119), `x.T`, `MPO(x.cores)`. -/
inductive MPOStmt (K : Type*) [Zero K]
  | new (cores : List (ND K))
  | mul (x : ℕ) (c : K)
  | T (x : ℕ)
  | share (x : ℕ)

namespace MPOHeap
variable {K : Type*}

/-- the `MPO` that object `a` currently is -/
def mpo [Zero K] (h : MPOHeap K) (a : ℕ) : MPO K := ⟨h.lists.getD (h.objs.getD a 0) []⟩

/-- One statement; the new object gets the next number.  An unknown object is a `NameError`. -/
def step [MulZeroClass K] (h : MPOHeap K) : MPOStmt K → Except PyErr (MPOHeap K)
  | .new cores => .ok ⟨h.objs ++ [h.lists.length], h.lists ++ [cores]⟩
  | .mul x c =>
    if x < h.objs.length then
      let l := h.objs.getD x 0
      .ok ⟨h.objs ++ [l], h.lists.set l (MPO.mulCores (h.lists.getD l []) c)⟩
    else .error .nameError
  | .T x =>
    if x < h.objs.length then .ok ⟨h.objs ++ [h.lists.length], h.lists ++ [(h.mpo x).T.cores]⟩
    else .error .nameError
  | .share x =>
    if x < h.objs.length then .ok ⟨h.objs ++ [h.objs.getD x 0], h.lists⟩
    else .error .nameError

/-- a program -/
def run [MulZeroClass K] (h : MPOHeap K) : List (MPOStmt K) → Except PyErr (MPOHeap K)
  | [] => .ok h
  | s :: ss =>
    match h.step s with
    | .error e => .error e
    | .ok h' => h'.run ss

end MPOHeap

/-! ### Preconditioners -/

/-- The further routines used by the solver: `scipy.linalg.solve_triangular(R, B)` and the first two values returned
by `np.linalg.lstsq(H, e, rcond=None)` (solution and array of residuals). -/
structure LinAlg2 extends LinAlg where
  solveTri : ND ℝ → ND ℝ → Except PyErr (ND ℝ)
  lstsq : ND ℝ → List ℝ → List ℝ × List ℝ

/-- `tt_gmres.py` 137-149 `TTPrecond`. -/
structure Precond where
  A : ND ℝ
  Q : ND ℝ
  R : ND ℝ
  mode : ℕ
  shape : List ℕ

namespace Precond

/-- `tt_gmres.py` 144-149: `TTPrecond(A, shape, mode)`. -/
def new (la : LinAlg2) (A : ND ℝ) (shape : List ℕ) (mode : ℕ) : Precond :=
  ⟨A, (la.qr A).1, (la.qr A).2, mode, shape⟩

/-- `tt_gmres.py` 151-157: `backward_call` (and `__call__`, 168).  `new_cores[self.mode]` raises `IndexError` for a
mode that does not exist. -/
def backward (la : LinAlg2) (P : Precond) (X : TT ℝ) : Except PyErr (TT ℝ) :=
  match X.cores[P.mode]? with
  | none => .error .indexError
  | some C =>
    match la.solveTri P.R (P.Q.matT.matmul (C.matricize [1] true)) with
    | .error e => .error e
    | .ok sol => .ok ⟨X.cores.set P.mode (sol.dematricize 1 C.shape)⟩

/-- `tt_gmres.py` 159-166: `forward_call`. -/
def forward (P : Precond) (X : TT ℝ) : Except PyErr (TT ℝ) :=
  match X.cores[P.mode]? with
  | none => .error .indexError
  | some C => .ok ⟨X.cores.set P.mode ((P.A.matmul (C.matricize [1] true)).dematricize 1 C.shape)⟩

end Precond

/-! ### Sums of linear maps -/

/-- `tt_gmres.py` 30-38: the abstract class `TTLinearMap`.  Any subclass written by a user: two attributes and a
`__call__`. -/
structure UserMap where
  inShape : List ℕ
  outShape : List ℕ
  call : TT ℝ → Except PyErr (TT ℝ)

/-- The subclasses of `TTLinearMap` (`tt_gmres.py` 30-38): the two of the library, and those of users. -/
inductive LinMap
  | mpo (A : MPO ℝ)
  | precond (P : Precond)
  | user (u : UserMap)

namespace LinMap

/-- `in_shape` (`tt_gmres.py` 56, 148) -/
def inShape : LinMap → List ℕ
  | mpo A => A.inShape
  | precond P => P.shape
  | user u => u.inShape

/-- `out_shape` (`tt_gmres.py` 57, 149) -/
def outShape : LinMap → List ℕ
  | mpo A => A.outShape
  | precond P => P.shape
  | user u => u.outShape

/-- `__call__` (`tt_gmres.py` 92, 168) -/
def call (la : LinAlg2) : LinMap → TT ℝ → Except PyErr (TT ℝ)
  | mpo A, X => .ok (A.call X)
  | precond P, X => P.backward la X
  | user u, X => u.call X

end LinMap

/-- `tt_gmres.py` 171-179 `TTLinearMapSum`. -/
structure LinMapSum where
  inShape : List ℕ
  outShape : List ℕ
  maps : List LinMap

namespace LinMapSum

/-- `tt_gmres.py` 181-192: the constructor. -/
def new (maps : List LinMap) : Except PyErr LinMapSum :=
  match maps with
  | [] => .error .valueError
  | m :: ms =>
    let rec check : List LinMap → Except PyErr Unit
      | [] => .ok ()
      | l :: ls =>
        if l.inShape ≠ m.inShape then .error .valueError
        else if l.outShape ≠ m.outShape then .error .valueError
        else check ls
    match check ms with
    | .error e => .error e
    | .ok () => .ok ⟨m.inShape, m.outShape, m :: ms⟩

/-- the two nested loops `tt_gmres.py` 203-205: one map applied to all tensors, then the next -/
def outputs (la : LinAlg2) (maps : List LinMap) (xs : List (TT ℝ)) : Except PyErr (List (TT ℝ)) :=
  match maps with
  | [] => .ok []
  | m :: ms =>
    match xs.mapM (m.call la) with
    | .error e => .error e
    | .ok ys =>
      match outputs la ms xs with
      | .error e => .error e
      | .ok zs => .ok (ys ++ zs)

/-- `tt_gmres.py` 194-207: `__call__` on the list of summands (`[x]` for a tensor train `x`), giving the summands of
the `TensorSum` (`IndexError` when there are none, `tensor.py` 618-622). -/
def call (la : LinAlg2) (A : LinMapSum) (xs : List (TT ℝ)) : Except PyErr (List (TT ℝ)) :=
  match outputs la A.maps xs with
  | .error e => .error e
  | .ok [] => .error .indexError
  | .ok ys => .ok ys

end LinMapSum
end TTS
