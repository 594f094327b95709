import Verif.Model.FloatSketch

/-!
# `hmt_sketch` and `orthogonal_sketch` in floating point arithmetic

The contractions with the DRM, the contractions with the cores found so far and the Psi cores are rounded
(`FlContr`, `FlPsiAt` in `Model/FloatSketch.lean`); the QR factorisation is `env.qr` and the least
squares solution `env.lstsq`.
-/

namespace TTS
open ND

/-- `sketch_dispatch.py` 248-274 for one `mu`, methods `orthogonal` (with the Omega matrices) and `hmt` (without): from the
cores found so far to those with one more (compare `psiOrthStep`).  The code goes on with the left contraction of the step
before (`next(left_psi_drm)`); here every step may round the earlier contractions anew, which allows more results than the
code has. -/
def FlOrthStep (u : ℝ) (env : Env ℝ) (X : Tensor ℝ) (lrank rrank : List ℕ) (om : Option (List (ND ℝ)))
    (rc : List (List (ND ℝ))) (cores : List (ND ℝ)) (mu : ℕ) (cores' : List (ND ℝ)) : Prop :=
  ∃ lc P, (0 < mu → (orthDRM lrank X.shape cores).FlContr u env X lc) ∧
    FlPsiAt u X lrank rrank lc rc mu P ∧
    if mu < X.shape.length - 1 then
      ∃ Q, orthStep env P (om.map fun l => l.getD mu (ND.zeros [])) = .ok Q ∧ cores' = cores ++ [Q]
    else cores' = cores ++ [P]

/-- `sketch.py` 44-78: `hmt_sketch`, with `sketch_dispatch.py` 202-275 (`general_sketch`, method `hmt`). -/
def FlHmtSketch (u : ℝ) (env : Env ℝ) (X : Tensor ℝ) (rank : RankArg) (seed : Option ℕ) (drmType : Option DRMKind)
    (drm : Option (DRM ℝ)) (Y : TT ℝ) : Prop :=
  ∃ D rc, hmtDRM env X.shape rank (seed.getD (env.freshSeed % 2 ^ 32)) drmType drm = .ok D ∧
    D.FlContr u env X rc ∧
    flFold (fun cores mu cores' => FlOrthStep u env X D.T.rank D.rank.reverse none rc cores mu cores') []
      (List.range X.shape.length) Y.cores

/-- `sketch.py` 81-151: `orthogonal_sketch`, with `sketch_dispatch.py` 202-275 (`general_sketch`, method `orthogonal`). -/
def FlOrthogonalSketch (u : ℝ) (env : Env ℝ) (X : Tensor ℝ) (lrank rrank : RankArg) (kw : SketchKw ℝ) (Y : TT ℝ)
    (l r : DRM ℝ) : Prop :=
  ranksLess lrank rrank = .ok true ∧
  leftDRM env X.shape lrank true (kw.seed.getD (env.freshSeed % 2 ^ 32)) kw = .ok l ∧
  rightDRM env X.shape rrank false (kw.seed.getD (env.freshSeed % 2 ^ 32)) kw = .ok r ∧
  ∃ lc rc om, l.FlContr u env X lc ∧ r.FlContr u env X rc ∧
    List.Forall₂ (fun mu O => FlOmegaT u X mu [l.rank.getD mu 0, r.rank.reverse.getD mu 0] (pick lc mu) (pick rc mu) O)
      (List.range (X.shape.length - 1)) om ∧
    flFold (fun cores mu cores' => FlOrthStep u env X l.rank r.rank.reverse (some om) rc cores mu cores') []
      (List.range X.shape.length) Y.cores

end TTS
