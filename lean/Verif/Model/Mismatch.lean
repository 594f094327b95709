import Verif.Model.GatherInt
import Verif.Model.Numerics

/-!
# Operands of different shapes

`Model/Tensor.lean` models `add`, `dot`, `to_numpy` of sums for operands whose shapes fit together.  Nothing in the code checks
this; here the operations are modelled for all shapes, with numpy's own checks and its broadcasting.
-/

namespace TTS

open Finset

variable {K : Type*}

/-- numpy broadcasting of the sizes of one axis (used by `einsum`, `+=`, `-`): sizes other than 1 must agree; `none` is a
`ValueError`. -/
def bdim (n m : ℕ) : Option ℕ := if n = m ∨ m = 1 then some n else if n = 1 then some m else none

/-- An array stretched to the sizes `sh` (one per axis): axes of size 1 are repeated. -/
def ND.stretch [Zero K] (A : ND K) (sh : List ℕ) : ND K :=
  ND.ofFn sh fun i => A.get (List.zipWith (fun n k => if n = 1 then 0 else k) A.shape i)

/-- `np.concatenate((A, B), axis=ax)` for three-dimensional arrays does not raise: the other sizes agree. -/
def concatOk [Zero K] (ax : ℕ) (A B : ND K) : Bool := (List.range 3).all fun k => decide (k = ax ∨ A.dim k = B.dim k)

/-- `tensor.py` 527-540: the `np.concatenate` calls of `TensorTrain.add`, in order.  The `zip` of the middle cores stops at
the shorter list.  Simplification: the arrays have three axes. -/
def TT.addE [Zero K] (X Y : TT K) : Except PyErr (TT K) :=
  match X.cores, Y.cores with
  | C :: Cs, D :: Ds =>
    let mid := Cs.dropLast.zip Ds.dropLast
    if concatOk 2 C D && (mid.all fun p =>
        concatOk 2 p.1 (ND.zeros [p.1.dim 0, p.1.dim 1, p.2.dim 2])
          && concatOk 2 (ND.zeros [p.2.dim 0, p.1.dim 1, p.1.dim 2]) p.2
          && concatOk 0 (ND.concat2 p.1 (ND.zeros [p.1.dim 0, p.1.dim 1, p.2.dim 2]))
            (ND.concat2 (ND.zeros [p.2.dim 0, p.1.dim 1, p.1.dim 2]) p.2))
        && concatOk 0 (X.cores.getLastD (ND.zeros [])) (Y.cores.getLastD (ND.zeros []))
    then .ok (X.add Y) else .error .valueError
  | _, _ => .error .indexError

/-- `tensor.py` 549: the first `einsum("ijk,ljm->km")` of `TensorTrain.dot`, with broadcasting of `j`. -/
def dotInitE [CommSemiring K] (C D : ND K) : Except PyErr (ND K) :=
  match bdim (C.dim 1) (D.dim 1) with
  | some n => .ok (ND.es_ijk_ljm_km (C.stretch [C.dim 0, n, C.dim 2]) (D.stretch [D.dim 0, n, D.dim 2]))
  | none => .error .valueError

/-- `tensor.py` 550-554: one `einsum("ij,ika,jkb->ab")` of `TensorTrain.dot`, with broadcasting of `i`, `j` and `k`. -/
def dotStepE [CommSemiring K] (R : ND K) (p : ND K × ND K) : Except PyErr (ND K) :=
  match bdim (R.dim 0) (p.1.dim 0), bdim (R.dim 1) (p.2.dim 0), bdim (p.1.dim 1) (p.2.dim 1) with
  | some a, some b, some n =>
    .ok (ND.es_ij_ika_jkb_ab (R.stretch [a, b]) (p.1.stretch [a, n, p.1.dim 2]) (p.2.stretch [b, n, p.2.dim 2]))
  | _, _, _ => .error .valueError

/-- `tensor.py` 548-555: the branch of `dot` for two tensor trains, whatever their shapes. -/
def TT.dotE [CommSemiring K] (X Y : TT K) : Except PyErr K :=
  match X.cores, Y.cores with
  | C :: Cs, D :: Ds => do
    let R ← dotInitE C D
    let R ← (Cs.zip Ds).foldlM dotStepE R
    return R.total
  | _, _ => .error .indexError

/-- `tensor.py` 127-129: `np.dot` of the flattened arrays, which must have the same number of entries. -/
def Leaf.denseDotE [CommSemiring K] (X Y : Leaf K) : Except PyErr K :=
  if X.toNumpy.shape.prod = Y.toNumpy.shape.prod then .ok (Leaf.denseDot X Y) else .error .valueError

/-- `gather` where the class defines it, for any integer indices (`Model/GatherInt.lean`). -/
def Leaf.gatherZ? [CommSemiring K] : Leaf K → Option (ℕ → List (List ℤ) → Except PyErr (List K))
  | .sparse X => some X.gatherZ
  | .tt X => some X.gatherZ
  | .cp X => some X.gatherZ
  | .dense _ => none
  | .tucker _ => none

/-- `tensor.py` 250-255: `SparseTensor.dot` with a tensor that has a `gather`. -/
def Sparse.gatherDot [CommSemiring K] (S : Sparse K) (g : ℕ → List (List ℤ) → Except PyErr (List K)) : Except PyErr K :=
  (g S.shape.length (S.entries.map fun e => e.1.map fun (k : ℕ) => (k : ℤ))).map fun vs => Leaf.vdot vs (S.entries.map Prod.snd)

/-- `X.dot(Y, reverse=True)` for `Y` not a `TensorSum`: `tensor.py` 121-129, 250-255, 542-557. -/
def Leaf.dotRevE [CommSemiring K] (X Y : Leaf K) : Except PyErr K :=
  match X with
  | .sparse S =>
    match Y.gatherZ? with
    | some g => S.gatherDot g
    | none => X.denseDotE Y
  | .tt A =>
    match Y with
    | .tt B => A.dotE B
    | _ => X.denseDotE Y
  | _ => X.denseDotE Y

/-- `X.dot(Y)` for `Y` not a `TensorSum` (same lines). -/
def Leaf.dotE [CommSemiring K] (X Y : Leaf K) : Except PyErr K :=
  match X with
  | .sparse S =>
    match Y.gatherZ? with
    | some g => S.gatherDot g
    | none => Y.dotRevE X
  | .tt A =>
    match Y with
    | .tt B => A.dotE B
    | _ => Y.dotRevE X
  | _ => Y.dotRevE X

/-- `np.broadcast_shapes` of two shapes aligned at their ends; `none` is a `ValueError`. -/
def bshape (s t : List ℕ) : Option (List ℕ) :=
  let n := max s.length t.length
  ((List.replicate (n - s.length) 1 ++ s).zip (List.replicate (n - t.length) 1 ++ t)).mapM fun (p : ℕ × ℕ) => bdim p.1 p.2

/-- `np.broadcast_to(A, sh)` for a shape with at least as many axes. -/
def ND.bcast [Zero K] (A : ND K) (sh : List ℕ) : ND K :=
  ND.ofFn sh fun i => A.get (List.zipWith (fun n k => if n = 1 then 0 else k) A.shape (i.drop (sh.length - A.shape.length)))

/-- `s += A` (`tensor.py` 636): `A` is broadcast to the shape of `s`, whose shape does not change. -/
def ND.iaddE [CommSemiring K] (s A : ND K) : Except PyErr (ND K) :=
  if bshape s.shape A.shape = some s.shape then .ok (s.add (A.bcast s.shape)) else .error .valueError

/-- `tensor.py` 633-637: `TensorSum.to_numpy` for summands of any shapes. -/
def TSum.toNumpyE [CommSemiring K] (X : TSum K) : Except PyErr (ND K) :=
  X.tensors.foldlM (fun s t => s.iaddE t.toNumpy) (ND.zeros X.shape)

/-- `A - B` of two arrays of any shapes (`tensor.py` 75). -/
noncomputable def ND.subE (A B : ND ℝ) : Except PyErr (ND ℝ) :=
  match bshape A.shape B.shape with
  | some sh => .ok ((A.bcast sh).sub (B.bcast sh))
  | none => .error .valueError

/-- `tensor.py` 52-81: `Tensor.error` without `fast`, for any shapes.  (Two tensor trains use `TensorTrain.error` instead.) -/
noncomputable def Leaf.errorE (la : LinAlg) (X Y : Leaf ℝ) (relative rmse : Bool) : Except PyErr PyFloat :=
  match Tensor.norm la (.leaf Y) with
  | .error e => .error e
  | .ok otherNorm =>
    (X.toNumpy.subE Y.toNumpy).map fun D => errorOpts X.shape relative rmse otherNorm (.val D.frob)

/-- `tensor.py` 598-607: `TensorTrain.error` with a tensor train of any shape. -/
noncomputable def TT.errorE (la : LinAlg) (X Y : TT ℝ) (relative rmse : Bool) : Except PyErr PyFloat :=
  match X.addE (Y.mul (-1)) with
  | .error e => .error e
  | .ok _ => X.error la Y relative rmse

end TTS
