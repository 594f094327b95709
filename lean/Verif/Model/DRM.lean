import Verif.Model.Tensor
import Verif.Model.Hash

/-!
# Model of the dimension reduction matrices (`tt_sketch/drm_base.py`, `tt_sketch/drm/*.py`)

Everything the code obtains from outside (numpy's generators, `scipy.special.ndtri`, QR, least
squares, `hash(str)`) is a field of `Env`; theorems quantify over all environments and name the
contract they need.  Ranks and seeds are natural numbers.
-/

namespace TTS

open Finset

variable {K : Type*}

/-- Outcomes of external routines. -/
structure Env (K : Type*) [Zero K] where
  /-- `ndtri(m / 2^52)` (`fast_lazy_gaussian.pyx` 49) -/
  ndtri : ℕ → K
  /-- `hash(uniform())` drawn when no seed is given (`drm_base.py` 61) -/
  freshSeed : ℕ
  /-- `np.random.seed(seed); hash(np.random.uniform(0, dim_prod))` (`dense_gaussian_drm.py` 50-51) -/
  seedOffset : Option ℕ → ℕ → ℕ
  /-- draw number `k` of `np.random.normal` after `np.random.seed(s)` -/
  normalStream : ℕ → ℕ → K
  /-- `SeedSequence(seed).generate_state(d)[i]` (`tensor.py` 358-359) -/
  genState : ℕ → ℕ → ℕ → ℕ
  /-- entry `k` of the flat result of `random_normal` of total size `n` (`utils.py` 223-227) -/
  randomNormal : ℕ → ℕ → ℕ → K
  /-- `1 / np.sqrt(r)` -/
  invSqrt : ℕ → K
  /-- `scipy.linalg.lstsq(M, b)[0]` -/
  lstsq : ND K → ND K → ND K
  /-- economic QR factorisation -/
  qr : ND K → ND K × ND K
  /-- `hash(str(d))`, which python salts per process -/
  strHash : ℕ → ℤ

/-! ### Random tensor trains -/

/-- The argument `norm_goal` of `TensorTrain.random`. -/
inductive NormGoal
  | norm1
  | preserve
  | other
  deriving DecidableEq

/-- `tensor.py` 360-376: core number `i` of `TensorTrain.random`, for augmented ranks `aug`. -/
def TT.randomCore [CommSemiring K] (env : Env K) (shape aug : List ℕ) (seed : ℕ) (orthog : Bool)
    (goal : NormGoal) (i : ℕ) : Except PyErr (ND K) :=
  let r1 := aug.getD i 0
  let r2 := aug.getD (i + 1) 0
  let n := shape.getD i 0
  let core : ND K := ND.ofFn [r1 * n, r2] fun ij =>
    env.randomNormal (env.genState seed shape.length i) (r1 * n * r2) (ravel [r1 * n, r2] ij)
  if orthog = true ∧ i + 1 < shape.length then (env.qr core).1.reshape? [r1, n, r2]
  else match goal with
    | .norm1 => (core.smul (env.invSqrt (r1 * n))).reshape? [r1, n, r2]
    | .preserve => (core.smul (env.invSqrt r1)).reshape? [r1, n, r2]
    | .other => .error .valueError

/-- `tensor.py` 323-378: `TensorTrain.random` (with an explicit seed). -/
def TT.random [CommSemiring K] (env : Env K) (shape : List ℕ) (rank : RankArg) (seed : ℕ)
    (orthog : Bool) (trim : Option Bool) (goal : NormGoal) : Except PyErr (TT K) :=
  let trim := trim.getD orthog
  if orthog = true ∧ trim = false then .error .valueError
  else match processTTRank rank shape trim with
    | .error e => .error e
    | .ok r =>
      ((List.range shape.length).mapM
        (TT.randomCore env shape (1 :: r ++ [1]) seed orthog goal)).map TT.mk

/-! ### The base class -/

/-- The DRM classes (`drm/__init__.py` 7). -/
inductive DRMKind
  | denseGaussian
  | sparseGaussian
  | tensorTrain
  | sparseSign
  deriving DecidableEq

/-- Attributes set by `DRM.__init__` (`drm_base.py` 16-22). -/
structure DRMBase where
  rank : List ℕ
  rankMin : List ℕ
  rankMax : List ℕ
  trueRank : List ℕ
  shape : List ℕ
  transpose : Bool
  seed : ℕ

/-- Optional keyword arguments of the DRM constructors. -/
structure DRMKw where
  rankMin : Option (List ℕ) := none
  rankMax : Option (List ℕ) := none
  trueRank : Option (List ℕ) := none
  nnz : Option (List ℕ) := none

/-- `drm_base.py` 24-63: `DRM.__init__`. -/
def DRMBase.new [Zero K] (env : Env K) (rank : RankArg) (shape : List ℕ) (transpose : Bool)
    (seed : Option ℕ) (kw : DRMKw) : Except PyErr DRMBase :=
  match processTTRank rank shape false with
  | .error e => .error e
  | .ok rank =>
    let trueRank := kw.trueRank.getD rank
    let rankMin := kw.rankMin.getD (List.replicate (shape.length - 1) 0)
    let rankMax := kw.rankMax.getD rank
    let trueRank := if transpose then trueRank.reverse else trueRank
    let rankMin := if transpose then rankMin.reverse else rankMin
    let rankMax := if transpose then rankMax.reverse else rankMax
    .ok { rank := List.zipWith (fun r1 r2 => r2 - r1) rankMin rankMax
          rankMin := rankMin, rankMax := rankMax, trueRank := trueRank
          shape := shape, transpose := transpose
          seed := (seed.getD env.freshSeed) % (2 ^ 32 - 1) }

/-- `drm_base.py` 65-73: `T` on the base attributes (`shape` and the data are not reversed). -/
def DRMBase.T (D : DRMBase) : DRMBase :=
  { D with
    transpose := !D.transpose
    trueRank := D.trueRank.reverse
    rankMin := D.rankMin.reverse
    rankMax := D.rankMax.reverse
    rank := D.rank.reverse }

/-- The data of the concrete classes: `sketching_mats`, nothing, `nnz`, `cores`. -/
inductive DRMData (K : Type*) [Zero K]
  | dense (mats : List (ND K))
  | gauss
  | sign (nnz : List ℕ)
  | tt (cores : List (ND K))

/-- A DRM object. -/
structure DRM (K : Type*) [Zero K] extends DRMBase where
  data : DRMData K

/-- class of the object -/
def DRMData.kind [Zero K] : DRMData K → DRMKind
  | .dense _ => .denseGaussian
  | .gauss => .sparseGaussian
  | .sign _ => .sparseSign
  | .tt _ => .tensorTrain

/-- The shape in the DRM's own direction (`dense_gaussian_drm.py` 38-40,
`tensor_train_drm.py` 46-51). -/
def DRMBase.ownShape (D : DRMBase) : List ℕ := if D.transpose then D.shape.reverse else D.shape

/-- `dense_gaussian_drm.py` 44-57: the matrix for mode `mu`. `rawSeed` is the constructor argument
`seed`, used in line 50 instead of `self.seed`. -/
def denseMat [Zero K] (env : Env K) (B : DRMBase) (rawSeed : Option ℕ) (mu : ℕ) : ND K :=
  let dimProd := (B.ownShape.take (mu + 1)).prod
  let off := env.seedOffset rawSeed dimProd
  let s := (B.seed + off) % (2 ^ 32 - 1)
  let M : ND K := ND.ofFn [B.trueRank.getD mu 0, dimProd] fun ij =>
    env.normalStream s (ravel [B.trueRank.getD mu 0, dimProd] ij)
  M.rows (B.rankMin.getD mu 0) (B.rankMax.getD mu 0)

/-- The constructors: `dense_gaussian_drm.py` 26-57 (`np.random.seed` rejects seeds `≥ 2^32`),
`sparse_gaussian_drm.py` 19-27, `sparse_sign_drm.py` 20-32, `tensor_train_drm.py` 37-58. -/
def DRM.new [CommSemiring K] (env : Env K) (kind : DRMKind) (rank : RankArg) (shape : List ℕ)
    (transpose : Bool) (seed : Option ℕ) (kw : DRMKw := {}) : Except PyErr (DRM K) :=
  match DRMBase.new env rank shape transpose seed kw with
  | .error e => .error e
  | .ok B =>
    match kind with
    | .denseGaussian =>
      let n := min B.trueRank.length (B.ownShape.length - 1)
      if 0 < n ∧ 2 ^ 32 ≤ seed.getD 0 then .error .valueError
      else .ok ⟨B, .dense ((List.range n).map (denseMat env B seed))⟩
    | .sparseGaussian => .ok ⟨B, .gauss⟩
    | .sparseSign => .ok ⟨B, .sign (kw.nnz.getD B.trueRank)⟩
    | .tensorTrain =>
      match TT.random env B.ownShape (.seq B.trueRank) B.seed false none .preserve with
      | .error e => .error e
      | .ok tt => .ok ⟨B, .tt tt.cores.dropLast⟩

/-- `drm_base.py` 65-73: `T`. -/
def DRM.T [Zero K] (D : DRM K) : DRM K := ⟨D.toDRMBase.T, D.data⟩

/-- `drm_base.py` 92-109: `CanSlice.slice(start_rank, end_rank)`, inherited by all DRM classes. -/
def DRM.slice [CommSemiring K] (env : Env K) (D : DRM K) (a b : List ℕ) : Except PyErr (DRM K) :=
  DRM.new env D.data.kind (.seq D.rank) D.shape D.transpose (some D.seed)
    { rankMin := some a, rankMax := some b
      trueRank := some (if D.transpose then D.trueRank.reverse else D.trueRank) }

/-- `drm_base.py` 112-119: `CanIncreaseRank.increase_rank`; only `DenseGaussianDRM` and
`SparseGaussianDRM` have it. -/
def DRM.increaseRank [CommSemiring K] (env : Env K) (D : DRM K) (new : List ℕ) :
    Except PyErr (DRM K) :=
  match D.data with
  | .dense _ => DRM.new env .denseGaussian (.seq new) D.shape D.transpose (some D.seed)
  | .gauss => DRM.new env .sparseGaussian (.seq new) D.shape D.transpose (some D.seed)
  | _ => .error .attributeError

/-! ### Contractions with one tensor -/

/-- `core[:, inds, :]` (numpy integer indexing of the second axis). -/
def ND.takeAxis1 [Zero K] (C : ND K) (inds : List ℕ) : ND K :=
  ND.ofFn [C.dim 0, inds.length, C.dim 2] fun i => C.get [i.getD 0 0, inds.getD (i.getD 1 0) 0, i.getD 2 0]

/-- `tensor.indices[mu]` -/
def Sparse.row (X : Sparse K) (mu : ℕ) : List ℕ := X.entries.map fun e => e.1.getD mu 0

/-- The loop shape shared by the methods of `TensorTrainDRM`: a running contraction `P` updated
with every core; the list holds the value after each core. -/
def ttScan [Zero K] (step : ℕ → ND K → ND K → ND K) : ℕ → ND K → List (ND K) → List (ND K)
  | _, P, [] => [P]
  | mu, P, C :: Cs => P :: ttScan step (mu + 1) (step mu P C) Cs

/-- As `ttScan`, the first core being treated by `first`. -/
def ttRun [Zero K] (first : ND K → ND K) (step : ℕ → ND K → ND K → ND K) :
    List (ND K) → List (ND K)
  | [] => []
  | C :: Cs => ttScan step 1 (first C) Cs

/-- `tensor_train_drm.py` 60-69: `sketch_sparse` (before slicing: `lr_contract` after each core). -/
def ttSketchSparse [CommSemiring K] (cores : List (ND K)) (X : Sparse K) : List (ND K) :=
  ttRun (fun C => (C.takeAxis1 (X.row 0)).reshape (C.takeAxis1 (X.row 0)).shape.tail)
    (fun mu P C => ND.es_ijk_ji_jk (C.takeAxis1 (X.row mu)) P) cores

/-- `tensor_train_drm.py` 71-88: `sketch_tt` (before slicing). -/
def ttSketchTT [CommSemiring K] (cores : List (ND K)) (X : TT K) : List (ND K) :=
  ttRun (fun C => ND.es_ijk_ijl_kl (X.cores.getD 0 (ND.zeros [])) C)
    (fun mu P C => ND.es_ij_ikl_jkm_lm P (X.cores.getD mu (ND.zeros [])) C) cores

/-- `tensor_train_drm.py` 90-107: `sketch_cp` (before slicing). -/
def ttSketchCP [CommSemiring K] (cores : List (ND K)) (X : CP K) : List (ND K) :=
  ttRun (fun C => ND.es_ij_lik_jk (X.cores.getD 0 (ND.zeros [])) C)
    (fun mu P C => ND.es_ij_ki_jkl_il P (X.cores.getD mu (ND.zeros [])) C) cores

/-- `tensor_train_drm.py` 109-122: `sketch_dense` (`partial_contraction` after each core; the
method never uses `rank_min`/`rank_max`). -/
def ttSketchDense [CommSemiring K] (cores : List (ND K)) : List (ND K) :=
  ttRun (fun C => C.reshape [C.dim 0 * C.dim 1, C.dim 2])
    (fun _ P C =>
      let N := ND.es_ij_jkl_ikl P C
      N.reshape [N.dim 0 * N.dim 1, N.dim 2]) cores

/-- `tensor_train_drm.py` 124-145: `sketch_tucker`; `rank0` is `self.rank[0]`. -/
def ttSketchTucker [CommSemiring K] (cores : List (ND K)) (rank0 : ℕ) (X : Tucker K) :
    List (ND K) :=
  ttRun (fun C => (ND.es_ijk_jl_ilk C (X.factors.getD 0 (ND.zeros [])).matT).reshape
      [X.rank.getD 0 0, rank0])
    (fun mu P C =>
      let cr := ND.es_jkl_km_jml C (X.factors.getD mu (ND.zeros [])).matT
      let N := ND.es_ij_jml_iml P cr
      N.reshape [N.dim 0 * N.dim 1, N.dim 2]) cores

/-- numpy's size check in `partial_contraction.reshape(tensor.rank[0], self.rank[0])`
(`tensor_train_drm.py` 130-132). -/
def tuckerReshapeOk [Zero K] (cores : List (ND K)) (rank0 : ℕ) (X : Tucker K) : Prop :=
  let C := cores.headD (ND.zeros [])
  C.dim 0 * X.rank.getD 0 0 * C.dim 2 = X.rank.getD 0 0 * rank0

instance [Zero K] (cores : List (ND K)) (rank0 : ℕ) (X : Tucker K) :
    Decidable (tuckerReshapeOk cores rank0 X) := by unfold tuckerReshapeOk; infer_instance

/-- `[:, self.rank_min[mu] : self.rank_max[mu]]` applied to each element of the list. -/
def DRMBase.sliceCols [Zero K] (B : DRMBase) (l : List (ND K)) : List (ND K) :=
  l.zipIdx.map fun (M, mu) => M.cols (B.rankMin.getD mu 0) (B.rankMax.getD mu 0)

/-- `.T` of an `(N, r)` array given as a list of rows. -/
def ND.ofRowsT [Zero K] (r : ℕ) (rows : List (List K)) : ND K :=
  ND.ofFn [r, rows.length] fun ij => (rows.getD (ij.getD 1 0) []).getD (ij.getD 0 0) 0

/-- `tensor.indices[: mu + 1]` as `uint64` array. -/
def Sparse.rowsU64 (X : Sparse K) (k : ℕ) : List (List Hash.U64) :=
  (List.range k).map fun r => (X.row r).map (BitVec.ofNat 64)

/-- `tensor.shape[: mu + 1]` as `uint64` array. -/
def Sparse.shapeU64 (X : Sparse K) (k : ℕ) : List Hash.U64 := (X.shape.take k).map (BitVec.ofNat 64)

/-- Does the class have a method for this tensor class? (`drm/*.py`; the base classes define only
abstract methods.) -/
def DRMData.supports [Zero K] : DRMData K → Leaf K → Bool
  | .dense _, .sparse _ => true
  | .dense _, .tt _ => true
  | .dense _, .dense _ => true
  | .gauss, .sparse _ => true
  | .sign _, .sparse _ => true
  | .tt _, _ => true
  | _, _ => false

/-- The bodies of the sketch methods, for a tensor already in the DRM's own direction:
`dense_gaussian_drm.py` 59-80, `sparse_gaussian_drm.py` 29-44, `sparse_sign_drm.py` 34-51,
`tensor_train_drm.py` 60-145.  Entry `mu` of the list is the `mu`-th yielded array. -/
def DRM.sketchOwn [CommRing K] (env : Env K) (D : DRM K) (X : Leaf K) :
    Except PyErr (List (ND K)) :=
  match D.data, X with
  | .dense mats, .sparse X => .ok <| (List.range (X.shape.length - 1)).map fun mu =>
      let M := mats.getD mu (ND.zeros [])
      let inds := X.entries.map fun e => ravel (X.shape.take (mu + 1)) (e.1.take (mu + 1))
      ND.ofFn [M.dim 0, inds.length] fun ij => M.get [ij.getD 0 0, inds.getD (ij.getD 1 0) 0]
  | .dense mats, .tt X => .ok <| List.zipWith (fun sm pc => (sm.matmul pc).matT) mats X.partialDenseLR
  | .dense mats, .dense _ => .ok mats
  | .gauss, .sparse X => .ok <| (List.range (X.shape.length - 1)).map fun mu =>
      ND.ofRowsT (D.rankMax.getD mu 0 - D.rankMin.getD mu 0)
        (Hash.indsToNormal env.ndtri (X.rowsU64 (mu + 1)) (X.shapeU64 (mu + 1))
          (D.rankMin.getD mu 0) (D.rankMax.getD mu 0) ((mu + D.seed) % 2 ^ 63))
  | .sign nnz, .sparse X => .ok <| (List.range (X.shape.length - 1)).map fun mu =>
      ND.ofRowsT (min (D.rankMax.getD mu 0) (D.trueRank.getD mu 0) - D.rankMin.getD mu 0)
        ((Hash.indsToSparseSign (X.rowsU64 (mu + 1)) (X.shapeU64 (mu + 1)) (D.trueRank.getD mu 0)
          (D.rankMin.getD mu 0) (D.rankMax.getD mu 0) (nnz.getD mu 0)
          ((mu + D.seed) % 2 ^ 63)).map fun row => row.map fun (z : ℤ) => (z : K))
  | .tt cores, .sparse X => .ok <| (D.sliceCols (ttSketchSparse cores X)).map ND.matT
  | .tt cores, .tt X => .ok <| D.sliceCols (ttSketchTT cores X)
  | .tt cores, .cp X => .ok <| D.sliceCols (ttSketchCP cores X)
  | .tt cores, .dense _ => .ok <| (ttSketchDense cores).map ND.matT
  | .tt cores, .tucker X =>
      if tuckerReshapeOk cores (D.rank.getD 0 0) X then
        .ok <| ttSketchTucker cores (D.rank.getD 0 0) X
      else .error .valueError
  | _, _ => .error .attributeError

/-- `drm_base.py` 122-145: the sketch methods with their decorator `handle_transpose`, preceded by
`getattr(drm, ...)` of `sketch_dispatch.py` 153 (a missing method is an `AttributeError`). -/
def DRM.sketch [CommRing K] (env : Env K) (D : DRM K) (X : Leaf K) : Except PyErr (List (ND K)) :=
  if D.data.supports X = false then .error .attributeError
  else if D.shape ≠ X.shape then .error .valueError
  else if D.transpose then (D.sketchOwn env X.T).map List.reverse
  else D.sketchOwn env X

end TTS
