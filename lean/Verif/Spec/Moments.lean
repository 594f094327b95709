import Verif.Spec.Prob
import Verif.Spec.Contract
import Verif.Spec.Sketch
import Mathlib.Probability.Independence.Integration

/-!
# Standardised independent draws
-/

namespace TTS

open MeasureTheory ProbabilityTheory

/-- Idealised generators: different draws are independent random variables with mean `0` and variance `1` (draws from
arrays of different size with the same seed are left out, because these repeat the same numbers). -/
structure StandardDraws {Ω : Type*} [MeasurableSpace Ω] (P : Measure Ω) (g : Ω → Draw → ℝ) : Prop where
  prob : IsProbabilityMeasure P
  measurable : ∀ x, Measurable fun ω => g ω x
  indep : ∀ T : Finset Draw, Draw.Compatible T → iIndepFun (fun (x : T) ω => g ω x) P
  square : ∀ x, Integrable (fun ω => g ω x ^ 2) P
  mean : ∀ x, ∫ ω, g ω x ∂P = 0
  variance : ∀ x, ∫ ω, g ω x ^ 2 ∂P = 1

/-- The left and the right DRM (with `seed` arguments `sl` and `sr`) of a sketch of tensors of this shape use different
generators: the words `SeedSequence` produces for the cores of tensor train DRMs differ, and so do the seeds of the
matrices of dense Gaussian DRMs (`dense_gaussian_drm.py` 50-52). -/
structure Env.SeedsApart {K : Type*} [Zero K] (env : Env K) (shape : List ℕ) (sl sr : ℕ) : Prop where
  states : ∀ i < shape.length, ∀ j < shape.length,
    env.genState (sl % (2 ^ 32 - 1)) shape.length i ≠ env.genState (sr % (2 ^ 32 - 1)) shape.length j
  streams : ∀ i < shape.length - 1, ∀ j < shape.length - 1,
    (sl % (2 ^ 32 - 1) + env.seedOffset (some sl) (shape.take (i + 1)).prod) % (2 ^ 32 - 1)
      ≠ (sr % (2 ^ 32 - 1) + env.seedOffset (some sr) (shape.reverse.take (j + 1)).prod) % (2 ^ 32 - 1)

/-- The sum over all entries before and behind mode `mu` of the products of the entries of slice `j` of `A` and slice `j'`
of `B`. -/
def sliceInner (A B : ND ℝ) (mu j j' : ℕ) : ℝ :=
  sumIdx (A.shape.take mu) fun p => sumIdx (A.shape.drop (mu + 1)) fun q => A.get (p ++ j :: q) * B.get (p ++ j' :: q)

/-- Second moments of the random sketches `S` of `A` and `S'` of `B` (both with left ranks `l` and right ranks `r`):
different entries of `Omega` are uncorrelated and the mean of a product of the same entries is the inner product of the
tensors; for `Psi` this holds slice by slice.  All these means exist. -/
structure SketchMoments {Ω : Type*} [MeasurableSpace Ω] (P : Measure Ω) (S S' : Ω → Sketched ℝ) (A B : ND ℝ)
    (l r : List ℕ) : Prop where
  shape : ∀ ω, (S ω).sketch.HasShape A.shape l r ∧ (S ω).leftRank = l ∧ (S ω).rightRank = r
  shape' : ∀ ω, (S' ω).sketch.HasShape A.shape l r ∧ (S' ω).leftRank = l ∧ (S' ω).rightRank = r
  omega : ∀ mu < A.shape.length - 1, ∀ a < l.getD mu 0, ∀ b < r.getD mu 0, ∀ a' < l.getD mu 0, ∀ b' < r.getD mu 0,
    Integrable (fun ω => ((S ω).sketch.omega.getD mu (ND.zeros [])).get [a, b]
      * ((S' ω).sketch.omega.getD mu (ND.zeros [])).get [a', b']) P ∧
    ∫ ω, ((S ω).sketch.omega.getD mu (ND.zeros [])).get [a, b]
      * ((S' ω).sketch.omega.getD mu (ND.zeros [])).get [a', b'] ∂P = if a = a' ∧ b = b' then innerND A B else 0
  psi : ∀ mu < A.shape.length, ∀ a < (1 :: l).getD mu 0, ∀ j < A.shape.getD mu 0, ∀ b < (r ++ [1]).getD mu 0,
    ∀ a' < (1 :: l).getD mu 0, ∀ j' < A.shape.getD mu 0, ∀ b' < (r ++ [1]).getD mu 0,
    Integrable (fun ω => ((S ω).sketch.psi.getD mu (ND.zeros [])).get [a, j, b]
      * ((S' ω).sketch.psi.getD mu (ND.zeros [])).get [a', j', b']) P ∧
    ∫ ω, ((S ω).sketch.psi.getD mu (ND.zeros [])).get [a, j, b]
      * ((S' ω).sketch.psi.getD mu (ND.zeros [])).get [a', j', b'] ∂P
        = if a = a' ∧ b = b' then sliceInner A B mu j j' else 0

/-- A random array with uncorrelated entries, all of mean square `v`. -/
structure EntryMoments {Ω : Type*} [MeasurableSpace Ω] (P : Measure Ω) (X : Ω → ND ℝ) (sh : List ℕ) (v : ℝ) : Prop where
  shape : ∀ ω, (X ω).shape = sh
  entry : ∀ p q, InR sh p → InR sh q → Integrable (fun ω => (X ω).get p * (X ω).get q) P ∧
    ∫ ω, (X ω).get p * (X ω).get q ∂P = if p = q then v else 0

end TTS
