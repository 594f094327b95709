import Verif.Spec.Float
import Verif.Spec.Sketch

/-!
# Rounding errors of sketches

The quantities in the error bounds of the streaming sketch: the sketch computed with absolute values
everywhere, and the number of roundings.
-/

namespace TTS

/-- A DRM with all stored numbers replaced by their absolute values.  (The hashed DRMs store none.) -/
def DRM.abs (D : DRM ℝ) : DRM ℝ :=
  ⟨D.toDRMBase, match D.data with
    | .dense mats => .dense (mats.map ND.abs)
    | .gauss => .gauss
    | .sign nnz => .sign nnz
    | .tt cores => .tt (cores.map ND.abs)⟩

/-- Contractions with absolute values everywhere: `|D|` with `|X|`.  The hashed DRMs generate their
entries while contracting with a sparse tensor (and the entries of that tensor are not used): there
it is the absolute value of the contraction. -/
def DRM.absSketch (env : Env ℝ) (D : DRM ℝ) (X : Leaf ℝ) : Except PyErr (List (ND ℝ)) :=
  match D.data with
  | .gauss => (D.sketch env X).map fun l => l.map ND.abs
  | .sign _ => (D.sketch env X).map fun l => l.map ND.abs
  | _ => D.abs.sketch env X.abs

/-- Entry of the matrix `|D|` (compare `DRM.entry`): the product of the absolute values of the core
slices for tensor train DRMs, the absolute value of the entry for the others. -/
def DRM.absEntry (env : Env ℝ) (D : DRM ℝ) (k : ℕ) (p : List ℕ) (a : ℕ) : ℝ :=
  match D.data with
  | .tt cores => ttVal ((cores.take (k + 1)).map ND.abs) p 0 (D.rankMin.getD k 0 + a)
  | _ => |D.entry env k p a|

/-- The matrices of `|D|`, for a left DRM. -/
def DRM.absLeftMats (env : Env ℝ) (D : DRM ℝ) : Mats ℝ := fun k p a =>
  if k = 0 then 1 else D.absEntry env (k - 1) p a

/-- The matrices of `|D|`, for a right DRM. -/
def DRM.absRightMats (env : Env ℝ) (D : DRM ℝ) : Mats ℝ := fun k q b =>
  if k = D.shape.length then 1 else D.absEntry env (D.shape.length - 1 - k) q.reverse b

/-- The matrices of `|D|` for a right DRM, as they are applied to dense arrays (compare
`DRM.rightMatsDense`). -/
def DRM.absRightMatsDense (env : Env ℝ) (D : DRM ℝ) : Mats ℝ := fun k q b =>
  if k = D.shape.length then 1 else
    D.absEntry env (D.shape.length - 1 - k)
      (unravel (D.shape.drop k).reverse (ravel (D.shape.drop k) q)) b

/-- Roundings in step `j` of the contraction of a tensor (in the DRM's direction) with a tensor train
DRM whose ranks are `1, t_1, t_2, ..`: with mode sizes `n_j` and ranks `1, x_1, x_2, ..` of the
tensor, `t_j` for sparse and dense tensors, `x_j t_j n_j + 1` for tensor trains, `t_j n_j + 1` for CP
tensors, `n_j + t_j` for Tucker tensors. -/
def Leaf.stepRounds (X : Leaf ℝ) (t : List ℕ) (j : ℕ) : ℕ :=
  match X with
  | .sparse _ => t.getD j 0
  | .dense _ => t.getD j 0
  | .tt X => (1 :: X.rank).getD j 0 * t.getD j 0 * X.shape.getD j 0 + 1
  | .cp X => t.getD j 0 * X.shape.getD j 0 + 1
  | .tucker X => X.shape.getD j 0 + t.getD j 0

/-- Roundings in the contraction of the first `k` modes of a tensor (in the DRM's direction). -/
def DRM.contrRounds (D : DRM ℝ) (X : Leaf ℝ) (k : ℕ) : ℕ :=
  match D.data, X with
  | .tt _, X => ((List.range k).map fun j => X.stepRounds (1 :: D.trueRank) j).sum
  | .dense _, .tt X => (X.rank.take (k - 1)).sum + (X.shape.take k).prod
  | _, _ => 0

/-- Roundings in `Omega[mu]`, apart from those of the contractions. -/
def Leaf.omegaRounds (X : Leaf ℝ) (mu : ℕ) : ℕ :=
  match X with
  | .sparse X => X.nnz + 1
  | .tt X => X.rank.getD mu 0
  | .cp X => X.rank
  | .dense X => (X.shape.take (mu + 1)).prod + (X.shape.drop (mu + 1)).prod
  | .tucker X => (X.rank.take (mu + 1)).prod + (X.rank.drop (mu + 1)).prod

/-- Roundings in `Psi[mu]`, apart from those of the contractions. -/
def Leaf.psiRounds (X : Leaf ℝ) (mu : ℕ) : ℕ :=
  match X with
  | .sparse X => X.nnz + 1
  | .tt X => (1 :: X.rank).getD mu 0 * (X.rank ++ [1]).getD mu 0 + 1
  | .cp X => X.rank + 1
  | .dense X => (X.shape.take mu).prod * (X.shape.drop (mu + 1)).prod + 1
  | .tucker X => (X.rank.take mu).prod * (X.rank.drop (mu + 1)).prod + 1 + X.rank.getD mu 0

/-- Roundings in `Omega[mu]` of a tensor sketched with the DRMs `l` and `r`. -/
def Leaf.omegaTotal (l r : DRM ℝ) (X : Leaf ℝ) (mu : ℕ) : ℕ :=
  l.contrRounds X (mu + 1) + r.contrRounds X.T (X.shape.length - (mu + 1)) + X.omegaRounds mu

/-- Roundings in `Psi[mu]` of a tensor sketched with the DRMs `l` and `r`. -/
def Leaf.psiTotal (l r : DRM ℝ) (X : Leaf ℝ) (mu : ℕ) : ℕ :=
  l.contrRounds X mu + r.contrRounds X.T (X.shape.length - (mu + 1)) + X.psiRounds mu

/-- The same for lazy sums: one more for every addition. -/
def Tensor.omegaTotal (l r : DRM ℝ) (X : Tensor ℝ) (mu : ℕ) : ℕ :=
  match X with
  | .leaf X => X.omegaTotal l r mu
  | .sum X => (X.tensors.map fun t => t.omegaTotal l r mu).foldr max 0 + X.tensors.length

/-- The same for lazy sums: one more for every addition. -/
def Tensor.psiTotal (l r : DRM ℝ) (X : Tensor ℝ) (mu : ℕ) : ℕ :=
  match X with
  | .leaf X => X.psiTotal l r mu
  | .sum X => (X.tensors.map fun t => t.psiTotal l r mu).foldr max 0 + X.tensors.length

/-- `C` approximates the sketch `S`: same shapes, and the errors of the entries of `Psi[mu]` and
`Omega[mu]` are at most `(1 + u)^n - 1` times the entries of `M`, `n` being `p mu` and `o mu`. -/
structure Container.Approx (u : ℝ) (p o : ℕ → ℕ) (C S M : Container ℝ) : Prop where
  shape : C.shape = S.shape ∧ C.leftRank = S.leftRank ∧ C.rightRank = S.rightRank
  psiLen : C.psi.length = S.psi.length
  omegaLen : C.omega.length = S.omega.length
  psiShape : ∀ mu, (C.psi.getD mu (ND.zeros [])).shape = (S.psi.getD mu (ND.zeros [])).shape
  omegaShape : ∀ mu, (C.omega.getD mu (ND.zeros [])).shape = (S.omega.getD mu (ND.zeros [])).shape
  psi : ∀ mu < S.psi.length, ∀ i,
    |(C.psi.getD mu (ND.zeros [])).get i - (S.psi.getD mu (ND.zeros [])).get i|
      ≤ flErr u (p mu) * (M.psi.getD mu (ND.zeros [])).get i
  omega : ∀ mu < S.omega.length, ∀ i,
    |(C.omega.getD mu (ND.zeros [])).get i - (S.omega.getD mu (ND.zeros [])).get i|
      ≤ flErr u (o mu) * (M.omega.getD mu (ND.zeros [])).get i

end TTS
