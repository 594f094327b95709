import Verif.Model.Sketch
import Verif.Spec.Tensor
import Verif.Spec.Hash

/-!
# What a sketch is

The dimension reduction matrices (DRMs) as plain matrices, and the sketch of a dense array as the
defining contraction.  Nothing here refers to the sketching code.
-/

namespace TTS

open Finset

variable {K : Type*}

/-- A family of matrices for one side of a sketch.  `L k p a`: the entry in row `p` (a multi-index
over `k` modes) and column `a` of the matrix acting on `k` modes. -/
abbrev Mats (K : Type*) := ℕ → List ℕ → ℕ → K

/-- `Omega[mu]` of an array `f` of shape `sh`: the left matrix contracts the modes `0..mu`, the
right one all the others. -/
def omegaSpec [CommSemiring K] (sh : List ℕ) (f : List ℕ → K) (L R : Mats K) (mu a b : ℕ) : K :=
  sumIdx (sh.take (mu + 1)) fun p => sumIdx (sh.drop (mu + 1)) fun q =>
    L (mu + 1) p a * f (p ++ q) * R (mu + 1) q b

/-- `Psi[mu]`: mode `mu` stays open, the modes before it are contracted with the left matrix, those
behind it with the right matrix. -/
def psiSpec [CommSemiring K] (sh : List ℕ) (f : List ℕ → K) (L R : Mats K) (mu a j b : ℕ) : K :=
  sumIdx (sh.take mu) fun p => sumIdx (sh.drop (mu + 1)) fun q =>
    L mu p a * f (p ++ j :: q) * R (mu + 1) q b

/-- The sketch with left ranks `lr` and right ranks `rr`: `Psi[mu]` has shape
`(lr[mu-1], n[mu], rr[mu])` (`1` at the ends), `Omega[mu]` has shape `(lr[mu], rr[mu])`. -/
def sketchOf [CommSemiring K] (sh : List ℕ) (f : List ℕ → K) (L R : Mats K) (lr rr : List ℕ) :
    Container K where
  psi := (List.range sh.length).map fun mu =>
    ND.ofFn [(1 :: lr).getD mu 0, sh.getD mu 0, (rr ++ [1]).getD mu 0] fun i =>
      psiSpec sh f L R mu (i.getD 0 0) (i.getD 1 0) (i.getD 2 0)
  omega := (List.range (sh.length - 1)).map fun mu =>
    ND.ofFn [lr.getD mu 0, rr.getD mu 0] fun i => omegaSpec sh f L R mu (i.getD 0 0) (i.getD 1 0)
  shape := sh
  leftRank := lr
  rightRank := rr

/-- Entry `(p, a)` of the `k`-th matrix of a DRM in its own direction (it acts on the first
`k + 1` modes in that direction):
* dense Gaussian: the stored matrix, column = row-major position of `p`;
* sparse Gaussian / sparse sign: column `a` of the row that `inds_to_normal` /
  `inds_to_sparse_sign` returns for the single index `p`;
* tensor train: the product of the core slices selected by `p`. -/
def DRM.entry [CommRing K] (env : Env K) (D : DRM K) (k : ℕ) (p : List ℕ) (a : ℕ) : K :=
  match D.data with
  | .dense mats => (mats.getD k (ND.zeros [])).get [a, ravel (D.ownShape.take (k + 1)) p]
  | .gauss =>
    ((Hash.indsToNormal env.ndtri (Spec.idxArray (k + 1) [p])
      (Spec.shapeArray (D.ownShape.take (k + 1)))
      (D.rankMin.getD k 0) (D.rankMax.getD k 0) (k + D.seed)).headD []).getD a 0
  | .sign nnz =>
    (((Hash.indsToSparseSign (Spec.idxArray (k + 1) [p]) (Spec.shapeArray (D.ownShape.take (k + 1)))
      (D.trueRank.getD k 0) (D.rankMin.getD k 0) (D.rankMax.getD k 0) (nnz.getD k 0)
      (k + D.seed)).headD []).getD a 0 : ℤ)
  | .tt cores => ttVal (cores.take (k + 1)) p 0 (D.rankMin.getD k 0 + a)

/-- The matrices of a left DRM (nothing to contract for `0` modes: the factor is `1`). -/
def DRM.leftMats [CommRing K] (env : Env K) (D : DRM K) : Mats K := fun k p a =>
  if k = 0 then 1 else D.entry env (k - 1) p a

/-- The matrices of a right DRM: index `q` over the modes `k, k+1, ..` is read backwards. -/
def DRM.rightMats [CommRing K] (env : Env K) (D : DRM K) : Mats K := fun k q b =>
  if k = D.shape.length then 1 else D.entry env (D.shape.length - 1 - k) q.reverse b

/-- The right matrices as they are applied to dense arrays: the column for the multi-index `q` is
looked up at the row-major position of `q`, although the DRM numbers its columns by the row-major
position of the reversed index. -/
def DRM.rightMatsDense [CommRing K] (env : Env K) (D : DRM K) : Mats K := fun k q b =>
  if k = D.shape.length then 1 else
    D.entry env (D.shape.length - 1 - k)
      (unravel (D.shape.drop k).reverse (ravel (D.shape.drop k) q)) b

/-- A well-formed DRM for tensors with at least two modes: rank data of the right lengths with
`rank_min <= rank_max <= true_rank`, and data fitting the true ranks.  (Shown for everything the
constructors, `slice` and `increase_rank` return.) -/
structure DRM.WF [CommRing K] (D : DRM K) : Prop where
  two : 2 ≤ D.shape.length
  lenMin : D.rankMin.length = D.shape.length - 1
  lenMax : D.rankMax.length = D.shape.length - 1
  lenTrue : D.trueRank.length = D.shape.length - 1
  rank_eq : D.rank = List.zipWith (fun r1 r2 => r2 - r1) D.rankMin D.rankMax
  le_max : ∀ k < D.shape.length - 1, D.rankMin.getD k 0 ≤ D.rankMax.getD k 0
  le_true : ∀ k < D.shape.length - 1, D.rankMax.getD k 0 ≤ D.trueRank.getD k 0
  data_ok : match D.data with
    | .dense mats => mats.length = D.shape.length - 1 ∧ ∀ k < D.shape.length - 1,
        (mats.getD k (ND.zeros [])).shape = [D.rank.getD k 0, (D.ownShape.take (k + 1)).prod]
    | .gauss => True
    | .sign nnz => ∀ k < D.shape.length - 1, nnz.getD k 0 ≤ D.trueRank.getD k 0
    | .tt cores => cores.length = D.shape.length - 1 ∧ ∀ k < D.shape.length - 1,
        (cores.getD k (ND.zeros [])).shape
          = [(1 :: D.trueRank).getD k 0, D.ownShape.getD k 0, D.trueRank.getD k 0]

/-- No slicing: the DRM has all its columns. -/
def DRMBase.Full (D : DRMBase) : Prop :=
  ∀ k < D.shape.length - 1, D.rankMin.getD k 0 = 0 ∧ D.rankMax.getD k 0 = D.trueRank.getD k 0

/-- The combinations whose method ignores `rank_min` and `rank_max`. -/
def NeedsFull [Zero K] (D : DRM K) (X : Leaf K) : Prop :=
  match D.data, X with
  | .tt _, .dense _ => True
  | .tt _, .tucker _ => True
  | _, _ => False

/-- The DRM and the tensor fit together: both well formed, equal shapes, the class has a method for
the format, and that method handles the slicing (if any). -/
structure DRM.Accepts [CommRing K] (D : DRM K) (X : Leaf K) : Prop where
  wf : D.WF
  valid : X.Valid
  shape : X.shape = D.shape
  supports : D.data.supports X = true
  full : NeedsFull D X → D.toDRMBase.Full

/-- The formats for which a right DRM acts with `rightMats`: dense and Tucker tensors only if the
tensor has at most two modes. -/
def Leaf.RightExact [Zero K] : Leaf K → Prop
  | .dense X => X.shape.length ≤ 2
  | .tucker X => X.shape.length ≤ 2
  | _ => True

/-- As `Accepts`, for lazy sums: every summand is accepted. -/
structure DRM.AcceptsT [CommRing K] (D : DRM K) (X : Tensor K) : Prop where
  wf : D.WF
  shape : X.shape = D.shape
  each : ∀ t ∈ X.summands, D.Accepts t

/-- The sum of two sketches, core by core and matrix by matrix. -/
def Container.Sums [CommRing K] (A B C : Container K) : Prop :=
  C.shape = A.shape ∧ C.leftRank = A.leftRank ∧ C.rightRank = A.rightRank ∧
  C.psi.length = A.psi.length ∧ C.omega.length = A.omega.length ∧
  (∀ mu, (C.psi.getD mu (ND.zeros [])).shape = (A.psi.getD mu (ND.zeros [])).shape) ∧
  (∀ mu, (C.omega.getD mu (ND.zeros [])).shape = (A.omega.getD mu (ND.zeros [])).shape) ∧
  (∀ mu i, (C.psi.getD mu (ND.zeros [])).get i
    = (A.psi.getD mu (ND.zeros [])).get i + (B.psi.getD mu (ND.zeros [])).get i) ∧
  (∀ mu i, (C.omega.getD mu (ND.zeros [])).get i
    = (A.omega.getD mu (ND.zeros [])).get i + (B.omega.getD mu (ND.zeros [])).get i)

/-- Columns `a..b` of a contraction: a DRM's columns are the first axis of the contractions with sparse
and dense tensors and the second axis for the other formats. -/
def Leaf.sliceContr [Zero K] (X : Leaf K) (M : ND K) (a b : ℕ) : ND K :=
  match X with
  | .sparse _ => M.rows a b
  | .dense _ => M.rows a b
  | _ => M.cols a b

/-- A container for tensors of shape `sh` with left ranks `lr` and right ranks `rr`: one Psi core per mode, one
Omega matrix per bond, and all the array shapes. -/
structure Container.HasShape [Zero K] (C : Container K) (sh lr rr : List ℕ) : Prop where
  shape : C.shape = sh
  left : C.leftRank = lr
  right : C.rightRank = rr
  psiLen : C.psi.length = sh.length
  omegaLen : C.omega.length = sh.length - 1
  psi : ∀ mu < sh.length, (C.psi.getD mu (ND.zeros [])).shape
    = [(1 :: lr).getD mu 0, sh.getD mu 0, (rr ++ [1]).getD mu 0]
  omega : ∀ mu < sh.length - 1, (C.omega.getD mu (ND.zeros [])).shape = [lr.getD mu 0, rr.getD mu 0]

/-- `C` is the sum of the containers `cs`, entry by entry. -/
def Container.IsSumOf [CommRing K] (C : Container K) (cs : List (Container K)) : Prop :=
  (∀ mu < C.psi.length, ∀ i, (C.psi.getD mu (ND.zeros [])).get i
    = (cs.map fun c => (c.psi.getD mu (ND.zeros [])).get i).sum) ∧
  (∀ mu < C.omega.length, ∀ i, (C.omega.getD mu (ND.zeros [])).get i
    = (cs.map fun c => (c.omega.getD mu (ND.zeros [])).get i).sum)

/-- `C'` is `C` with all entries multiplied by `c`. -/
def Container.IsScaled [CommRing K] (C C' : Container K) (c : K) : Prop :=
  (∀ mu i, (C'.psi.getD mu (ND.zeros [])).get i = (C.psi.getD mu (ND.zeros [])).get i * c) ∧
  (∀ mu i, (C'.omega.getD mu (ND.zeros [])).get i = (C.omega.getD mu (ND.zeros [])).get i * c)

/-- A chain of cut points: at least two lists of `n` numbers, the first all zero, the last `rk`, each at most the
next one in every place. -/
structure CutChain (cuts : List (List ℕ)) (rk : List ℕ) (n : ℕ) : Prop where
  two : 2 ≤ cuts.length
  len : ∀ i < cuts.length, (cuts.getD i []).length = n
  first : cuts.getD 0 [] = List.replicate n 0
  last : cuts.getD (cuts.length - 1) [] = rk
  mono : ∀ i, i + 1 < cuts.length → ∀ k < n, (cuts.getD i []).getD k 0 ≤ (cuts.getD (i + 1) []).getD k 0

end TTS
