import Verif.Spec.Sketch

/-!
# The sketch of a Tucker tensor, in terms of its core

A Tucker tensor is its core with a factor matrix applied to every mode.  Contracting it with a matrix on some modes
is contracting the core with the matrix obtained by applying the factors of those modes to it.
-/

namespace TTS

open Finset

variable {K : Type*} [CommRing K]

/-- The factors of the first `k` modes applied to the matrix `L k`: row `s` is an index into the core. -/
def Tucker.absorbLeft (X : Tucker K) (L : Mats K) : Mats K := fun k s a =>
  sumIdx (X.shape.take k) fun p => facProd (X.factors.take k) s p * L k p a

/-- The same for the modes from `k` on. -/
def Tucker.absorbRight (X : Tucker K) (R : Mats K) : Mats K := fun k t b =>
  sumIdx (X.shape.drop k) fun q => facProd (X.factors.drop k) t q * R k q b

/-- Row `t` of the matrix `R k`, looked up at the index that has in the reversed shape the row-major position of
`t` in the shape itself (`sh` is the shape of all modes). -/
def Mats.misread (sh : List ℕ) (R : Mats K) : Mats K := fun k t b =>
  R k (unravel (sh.drop k).reverse (ravel (sh.drop k) t)).reverse b

/-- The core with the factor of mode `mu` applied and the other modes left as they are. -/
def Tucker.coreMode (X : Tucker K) (mu : ℕ) (i : List ℕ) : K :=
  ∑ u ∈ range (X.rank.getD mu 0), X.core.get (i.set mu u) *
    (X.factors.getD mu (ND.zeros [])).get [u, i.getD mu 0]

/-- The sketch computed from the core: matrices `P`, `Q` acting on core indices. -/
def Tucker.sketchOf (X : Tucker K) (P Q : Mats K) (lr rr : List ℕ) : Container K where
  psi := (List.range X.shape.length).map fun mu =>
    ND.ofFn [(1 :: lr).getD mu 0, X.shape.getD mu 0, (rr ++ [1]).getD mu 0] fun i =>
      psiSpec X.rank (X.coreMode mu) P Q mu (i.getD 0 0) (i.getD 1 0) (i.getD 2 0)
  omega := (List.range (X.shape.length - 1)).map fun mu =>
    ND.ofFn [lr.getD mu 0, rr.getD mu 0] fun i =>
      omegaSpec X.rank X.core.get P Q mu (i.getD 0 0) (i.getD 1 0)
  shape := X.shape
  leftRank := lr
  rightRank := rr

/-- The sketch of one tensor of any format with a left DRM `l` and a right DRM `r`. -/
def Leaf.sketchOf (env : Env K) (l r : DRM K) (lr rr : List ℕ) : Leaf K → Container K
  | .dense X => TTS.sketchOf X.shape X.get (l.leftMats env) (r.rightMatsDense env) lr rr
  | .tucker X => X.sketchOf (X.absorbLeft (l.leftMats env)) ((X.absorbRight (r.rightMats env)).misread X.rank) lr rr
  | t => TTS.sketchOf t.shape t.toNumpy.get (l.leftMats env) (r.rightMats env) lr rr

end TTS
