import Verif.Model.Tensor
import Mathlib.Analysis.Real.Sqrt

/-!
# Model of norms, errors, orthogonalisation, rounding and TT-SVD
(`tt_sketch/tensor.py` 52-81, 131-134, 241-242, 442-505, 559-609 and `tt_sketch/tt_svd.py`)

Floating point numbers are modelled by real numbers with exact arithmetic; `nan` and `inf` are modelled where the
code can return them.  `np.linalg.qr` and `np.linalg.svd` are parameters.
-/

namespace TTS

open Finset

/-- The numpy factorisations used here: `np.linalg.qr(M)` (reduced), `np.linalg.svd(M)` (full) and
`np.linalg.svd(M, full_matrices=False)` (thin). -/
structure LinAlg where
  qr : ND ℝ → ND ℝ × ND ℝ
  svd : ND ℝ → ND ℝ × List ℝ × ND ℝ
  svdThin : ND ℝ → ND ℝ × List ℝ × ND ℝ

/-- A python float: a number, `inf` or `nan`. -/
inductive PyFloat
  | val (x : ℝ)
  | inf
  | nan

open Classical in
/-- numpy's division of a float by a nonnegative number (`x / 0` is `nan` for `x = 0`, otherwise infinite; the sign
of that infinity is not modelled, the dividends here are never negative). -/
noncomputable def PyFloat.div : PyFloat → ℝ → PyFloat
  | .val x, y => if y = 0 then (if x = 0 then .nan else .inf) else .val (x / y)
  | .inf, _ => .inf
  | .nan, _ => .nan

namespace ND

/-- `np.linalg.norm(A)` (the 2-norm of all entries, whatever the number of axes). -/
noncomputable def frob (A : ND ℝ) : ℝ := √ (sumIdx A.shape fun i => A.get i ^ 2)

/-- `A - B` for arrays of equal shape. -/
def sub (A B : ND ℝ) : ND ℝ := ofFn A.shape fun i => A.get i - B.get i

/-- `A.reshape(a, n, -1)`.  numpy raises `ValueError` when the unknown axis cannot be determined, i.e. when `a * n`
is zero or does not divide the size. -/
def reshapeInfer (A : ND ℝ) (a n : ℕ) : Except PyErr (ND ℝ) :=
  if a * n = 0 then .error .valueError
  else if A.size % (a * n) ≠ 0 then .error .valueError
  else .ok (A.reshape [a, n, A.size / (a * n)])

/-- `np.diag(v)` for a vector. -/
def diag (v : List ℝ) : ND ℝ :=
  ofFn [v.length, v.length] fun i => if i.getD 0 0 = i.getD 1 0 then v.getD (i.getD 0 0) 0 else 0

end ND

/-! ### Left-orthogonalisation -/

/-- `tensor.py` 563-571: the loop of `orthogonalize` from one core on.  `R` is the triangular factor of the previous
core (`none` for `mu = 0`); a core is last when no other follows. -/
def TT.orthLoop (la : LinAlg) : Option (ND ℝ) → List (ND ℝ) → Except PyErr (List (ND ℝ))
  | _, [] => .ok []
  | R, C :: Cs =>
    let C := match R with
      | none => C
      | some R => ND.es_ij_jkl_ikl R C
    match Cs with
    | [] => .ok [C]
    | D :: Ds =>
      let QR := la.qr (C.reshape [C.dim 0 * C.dim 1, C.dim 2])
      match ND.reshapeInfer QR.1 (C.dim 0) (C.dim 1) with
      | .error e => .error e
      | .ok Q =>
        match TT.orthLoop la (some QR.2) (D :: Ds) with
        | .error e => .error e
        | .ok rest => .ok (Q :: rest)

/-- `tensor.py` 559-572: `orthogonalize`. -/
def TT.orthogonalize (la : LinAlg) (X : TT ℝ) : Except PyErr (TT ℝ) := (TT.orthLoop la none X.cores).map TT.mk

/-! ### Norms and errors -/

/-- `tensor.py` 442-444: `TensorTrain.norm`. -/
noncomputable def TT.norm (la : LinAlg) (X : TT ℝ) : Except PyErr ℝ :=
  (X.orthogonalize la).map fun O => ND.frob (O.cores.getLastD (ND.zeros []))

/-- `tensor.py` 241-242: `SparseTensor.norm`. -/
noncomputable def Sparse.norm (X : Sparse ℝ) : ℝ := √ ((X.entries.map fun e => e.2 ^ 2).sum)

/-- `norm` of each class: `tensor.py` 131-134 (base class), 241-242 (`SparseTensor`), 442-444 (`TensorTrain`). -/
noncomputable def Tensor.norm (la : LinAlg) (X : Tensor ℝ) : Except PyErr ℝ :=
  match X with
  | .leaf (.sparse S) => .ok S.norm
  | .leaf (.tt T) => T.norm la
  | X => .ok (√ |X.dot X|)

/-- `tensor.py` 66-72: the branch `fast=True`. -/
noncomputable def fastError (selfNorm otherNorm dot : ℝ) : PyFloat :=
  let normSum := selfNorm ^ 2 + otherNorm ^ 2
  match (PyFloat.val (2 * dot)).div normSum with
  | .val q => .val (√ normSum * √ |1 - q|)
  | f => f

open Classical in
/-- `tensor.py` 75-81 and 600-606: the options `relative` and `rmse`. -/
noncomputable def errorOpts (shape : List ℕ) (relative rmse : Bool) (otherNorm : ℝ) (error : PyFloat) : PyFloat :=
  if relative = true ∧ otherNorm = 0 then .inf
  else
    let error := if relative then error.div otherNorm else error
    if rmse then error.div (√ (shape.prod : ℝ)) else error

/-- `tensor.py` 52-81: `Tensor.error`. -/
noncomputable def Tensor.errorBase (la : LinAlg) (X Y : Tensor ℝ) (relative rmse fast : Bool) :
    Except PyErr PyFloat :=
  match Y.norm la with
  | .error e => .error e
  | .ok otherNorm =>
    let error : Except PyErr PyFloat :=
      if fast then
        match X.norm la with
        | .error e => .error e
        | .ok selfNorm => .ok (fastError selfNorm otherNorm (X.dot Y))
      else .ok (.val (X.toNumpy.sub Y.toNumpy).frob)
    error.map (errorOpts X.shape relative rmse otherNorm)

/-- `tensor.py` 598-607: `TensorTrain.error` with a tensor train.  (`other.norm()` is only computed for `relative`.) -/
noncomputable def TT.error (la : LinAlg) (X Y : TT ℝ) (relative rmse : Bool) : Except PyErr PyFloat :=
  match (X.add (Y.mul (-1))).norm la with
  | .error e => .error e
  | .ok err =>
    if relative then
      match Y.norm la with
      | .error e => .error e
      | .ok otherNorm => .ok (errorOpts X.shape true rmse otherNorm (.val err))
    else .ok (errorOpts X.shape false rmse 0 (.val err))

/-- `X.error(Y, relative, rmse, fast)` (`tensor.py` 52-81, 580-609).  Not modelled: `Y` being a `SketchedTensorTrain`,
which is first converted with `to_tt()`, or a numpy array, which is first wrapped as `DenseTensor`. -/
noncomputable def Tensor.error (la : LinAlg) (X Y : Tensor ℝ) (relative rmse fast : Bool) : Except PyErr PyFloat :=
  match X, Y with
  | .leaf (.tt A), .leaf (.tt B) => A.error la B relative rmse
  | X, Y => X.errorBase la Y relative rmse fast

/-! ### Rounding -/

open Classical in
/-- `tensor.py` 477: the number of singular values that are kept. -/
noncomputable def keepRank (S : List ℝ) (eps : ℝ) (maxRank : ℕ) : ℕ :=
  max 1 (min (S.countP fun s => decide (s > S.getD 0 0 * eps)) maxRank)

/-- `tensor.py` 471-482: the loop of `round`, from one core on.  The list holds the cores still to be processed, last
one first, so that `mu` is the number of cores that follow; `US` is `US_trunc` of the previous core (`none` for the
last core).  Returned are the new cores in the order they are appended, and for every bond the singular values left
out (the latter are not returned by the code). -/
noncomputable def TT.roundLoop (la : LinAlg) (eps : ℝ) (maxRank : List ℕ) :
    Option (ND ℝ) → List (ND ℝ) → Except PyErr (List (ND ℝ) × List (List ℝ))
  | _, [] => .ok ([], [])
  | US, C :: Cs =>
    let C := match US with
      | none => C
      | some US => ND.es_ijk_kl_ijl C US
    match Cs with
    | [] => .ok ([C], [])
    | D :: Ds =>
      let USV := la.svd (C.reshape [C.dim 0, C.dim 1 * C.dim 2])
      let U := USV.1
      let S := USV.2.1
      let Vt := USV.2.2
      if S = [] then .error .indexError
      else
        let r := keepRank S eps (maxRank.getD Ds.length 0)
        let US := (U.cols 0 r).matmul (ND.diag (S.take r))
        match (Vt.rows 0 r).reshape? [r, C.dim 1, C.dim 2] with
        | .error e => .error e
        | .ok V =>
          match TT.roundLoop la eps maxRank (some US) (D :: Ds) with
          | .error e => .error e
          | .ok rest => .ok (V :: rest.1, S.drop r :: rest.2)

/-- `tensor.py` 446-484: `round(eps, max_rank, orthogonalized)`, together with the singular values it leaves out,
bond by bond from the last to the first. -/
noncomputable def TT.roundTrace (la : LinAlg) (X : TT ℝ) (eps : Option ℝ) (maxRank : Option RankArg)
    (orthogonalized : Bool) : Except PyErr (TT ℝ × List (List ℝ)) :=
  match (if orthogonalized then .ok X else X.orthogonalize la) with
  | .error e => .error e
  | .ok tt =>
    match processTTRank (maxRank.getD (.seq tt.rank)) tt.shape true with
    | .error e => .error e
    | .ok mr =>
      match TT.roundLoop la (eps.getD 0) mr none tt.cores.reverse with
      | .error e => .error e
      | .ok out => .ok (⟨out.1.reverse⟩, out.2)

/-- `tensor.py` 446-484: `round(eps, max_rank, orthogonalized)`. -/
noncomputable def TT.round (la : LinAlg) (X : TT ℝ) (eps : Option ℝ) (maxRank : Option RankArg)
    (orthogonalized : Bool) : Except PyErr (TT ℝ) :=
  (X.roundTrace la eps maxRank orthogonalized).map Prod.fst

/-- `tensor.py` 491-503: the loop of `svdvals`, over the cores last one first.  `US` is the pair `U, S` of the
previous core.  `U @ np.diag(S)` raises `ValueError` when `U` has not as many columns as there are singular values. -/
def TT.svdvalsLoop (la : LinAlg) : Option (ND ℝ × List ℝ) → List (ND ℝ) → Except PyErr (List (List ℝ))
  | _, [] => .ok []
  | US, C :: Cs =>
    let C' : Except PyErr (ND ℝ) := match US with
      | none => .ok C
      | some (U, S) => if U.dim 1 ≠ S.length then .error .valueError
        else .ok (ND.es_ijk_kl_ijl C (U.matmul (ND.diag S)))
    match C' with
    | .error e => .error e
    | .ok C =>
      let M := match Cs with
        | [] => C.reshape [C.dim 0 * C.dim 1, C.dim 2]
        | _ => C.reshape [C.dim 0, C.dim 1 * C.dim 2]
      let USV := la.svd M
      match TT.svdvalsLoop la (some (USV.1, USV.2.1)) Cs with
      | .error e => .error e
      | .ok rest => .ok (USV.2.1 :: rest)

/-- `tensor.py` 486-505: `svdvals`. -/
def TT.svdvals (la : LinAlg) (X : TT ℝ) : Except PyErr (List (List ℝ)) :=
  match X.orthogonalize la with
  | .error e => .error e
  | .ok tt => (TT.svdvalsLoop la none tt.cores.reverse).map List.reverse

/-! ### TT-SVD -/

/-- `tt_svd.py` 43-46: the last core. -/
def ttSvdLast (A : ND ℝ) (r n : ℕ) : Except PyErr (ND ℝ) := A.reshape? [r, n, 1]

/-- `tt_svd.py` 31-46: the loop over the inner modes and the last core.  `A` is `tensor_compressed`, of shape
`(r, n_mu, ..., n_d)`; `shape` are the mode sizes from `mu` on and `ranks` the requested ranks from `mu` on.  Returned
are the cores and, for every bond, the singular values left out (the latter are not returned by the code). -/
def ttSvdLoop (la : LinAlg) : ND ℝ → ℕ → List ℕ → List ℕ → Except PyErr (List (ND ℝ) × List (List ℝ))
  | A, r, n :: m :: shape, k :: ranks =>
    let USV := la.svdThin (A.matricize [0, 1] true)
    let U := USV.1
    let S := USV.2.1
    let V := USV.2.2
    let r' := max (min (U.dim 1) k) 1
    match (U.cols 0 r').reshape? [r, n, r'] with
    | .error e => .error e
    | .ok core =>
      match ((ND.diag (S.take r')).matmul (V.rows 0 r')).reshape? (r' :: m :: shape) with
      | .error e => .error e
      | .ok A' =>
        match ttSvdLoop la A' r' (m :: shape) ranks with
        | .error e => .error e
        | .ok rest => .ok (core :: rest.1, S.drop r' :: rest.2)
  | A, r, [n], _ => (ttSvdLast A r n).map fun C => ([C], [])
  | _, _, _, _ => .error .indexError

/-- `tt_svd.py` 10-49: `tt_svd(tensor, rank)` for the array `A = tensor.to_numpy()` (the shape of the array is the
shape of the tensor), together with the singular values left out at every bond.  `new_rank[0]` raises `IndexError` for a
tensor with one mode. -/
def ttSvdTrace (la : LinAlg) (A : ND ℝ) (rank : Option RankArg) : Except PyErr (TT ℝ × List (List ℝ)) :=
  match processTTRank (rank.getD (.seq (List.replicate (A.shape.length - 1) A.shape.prod))) A.shape true with
  | .error e => .error e
  | .ok ranks =>
    match A.shape, ranks with
    | n :: m :: shape, k :: ranks =>
      let USV := la.svdThin (A.matricize [0] false)
      let U := USV.1
      let S := USV.2.1
      let V := USV.2.2
      let r := max (min (U.dim 1) k) 1
      match (U.cols 0 r).reshape? [1, n, r] with
      | .error e => .error e
      | .ok core =>
        match ((ND.diag (S.take r)).matmul (V.rows 0 r)).reshape? (r :: m :: shape) with
        | .error e => .error e
        | .ok A' =>
          match ttSvdLoop la A' r (m :: shape) ranks with
          | .error e => .error e
          | .ok rest => .ok (⟨core :: rest.1⟩, S.drop r :: rest.2)
    | _, _ => .error .indexError

/-- `tt_svd.py` 10-49: `tt_svd(tensor, rank)`. -/
def ttSvd (la : LinAlg) (A : ND ℝ) (rank : Option RankArg) : Except PyErr (TT ℝ) :=
  (ttSvdTrace la A rank).map Prod.fst

end TTS
