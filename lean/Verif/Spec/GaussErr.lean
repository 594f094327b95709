import Verif.Spec.Prob
import Verif.Spec.Contract
import Verif.Spec.OrthErr
import Mathlib.Probability.Distributions.Gaussian.Real

/-!
# Independent standard normal draws, and mean squared errors
-/

namespace TTS

open MeasureTheory ProbabilityTheory
open scoped ENNReal

/-- Idealised generators: finitely many different draws are independent standard normal numbers (draws from arrays of
different size with the same seed are left out, because these repeat the same numbers). -/
structure GaussianDraws {Ω : Type*} [MeasurableSpace Ω] (P : Measure Ω) (g : Ω → Draw → ℝ) : Prop where
  measurable : ∀ x, Measurable fun ω => g ω x
  law : ∀ T : Finset Draw, Draw.Compatible T → (P.map fun ω (x : T) => g ω x) = Measure.pi fun _ => gaussianReal 0 1

/-- Whatever the generators return, `f` returns a tensor train, and the mean of its squared distance to `A` is at most
`v` (more precisely: almost everywhere the squared distance is at most a measurable function with such a mean). -/
structure MeanErrSq {Ω : Type*} [MeasurableSpace Ω] (P : Measure Ω) (f : Ω → Except PyErr (TT ℝ)) (A : ND ℝ)
    (v : ℝ) : Prop where
  returns : ∀ ω, ∃ Y, f ω = .ok Y
  mean : ∃ E : Ω → ℝ≥0∞, Measurable E ∧ ∫⁻ ω, E ω ∂P ≤ ENNReal.ofReal v ∧
    ∀ᵐ ω ∂P, ∀ Y, f ω = .ok Y → ENNReal.ofReal (distSq A Y.toNumpy) ≤ E ω

/-- Whatever the generators return, `f` returns a tensor train, and the probability that its squared distance to `A`
exceeds `t` is at most `δ`. -/
structure WithProb {Ω : Type*} [MeasurableSpace Ω] (P : Measure Ω) (f : Ω → Except PyErr (TT ℝ)) (A : ND ℝ)
    (t δ : ℝ) : Prop where
  returns : ∀ ω, ∃ Y, f ω = .ok Y
  prob : P {ω | ∃ Y, f ω = .ok Y ∧ t < distSq A Y.toNumpy} ≤ ENNReal.ofReal δ

/-- `B` has the shape of `A` and its unfolding after `mu + 1` modes has rank at most `k`.  The rank `l` of the sketch
exceeds `k` by at least two; if `B` is `A` itself, `k ≤ l` is enough. -/
structure Oversampled (A B : ND ℝ) (mu k l : ℕ) : Prop where
  shape : B.shape = A.shape
  rank : (B.unfolding (mu + 1)).rank ≤ k
  size : k + 2 ≤ l ∨ (B = A ∧ k ≤ l)

/-- The matrices of the left and of the right dense Gaussian DRM (with `seed` arguments `sl` and `sr`) for the same bond
are drawn with different seeds (`dense_gaussian_drm.py` 50-52). -/
def Env.StreamsApart {K : Type*} [Zero K] (env : Env K) (shape : List ℕ) (sl sr : ℕ) : Prop :=
  ∀ mu < shape.length - 1,
    (sl % (2 ^ 32 - 1) + env.seedOffset (some sl) (shape.take (mu + 1)).prod) % (2 ^ 32 - 1)
      ≠ (sr % (2 ^ 32 - 1) + env.seedOffset (some sr) (shape.drop (mu + 1)).prod) % (2 ^ 32 - 1)

/-- All matrices of the left and of the right dense Gaussian DRM (with `seed` arguments `sl` and `sr`) are drawn with
different seeds (`dense_gaussian_drm.py` 50-52). -/
def Env.StreamsDistinct {K : Type*} [Zero K] (env : Env K) (shape : List ℕ) (sl sr : ℕ) : Prop :=
  let left := fun mu => (sl % (2 ^ 32 - 1) + env.seedOffset (some sl) (shape.take (mu + 1)).prod) % (2 ^ 32 - 1)
  let right := fun mu => (sr % (2 ^ 32 - 1) + env.seedOffset (some sr) (shape.drop (mu + 1)).prod) % (2 ^ 32 - 1)
  ∀ mu < shape.length - 1, ∀ nu < shape.length - 1,
    left mu ≠ right nu ∧ (mu ≠ nu → left mu ≠ left nu ∧ right mu ≠ right nu)

/-- The factor by which the mean of a squared norm grows under the oblique projection of a bond, where `w` and `l` are the
smaller and the larger one of the ranks of the two sketches. -/
noncomputable def growth (w l : ℕ) : ℝ := max 1 ((w : ℝ) / ((l : ℝ) - w - 1))

/-- Bound for the mean squared error at one bond: `w` and `l` are the smaller and the larger one of the ranks of the two
sketches, and `e` is the squared error of an approximation whose unfolding has rank at most `k`. -/
noncomputable def bondMean (w l k : ℕ) (e : ℝ) : ℝ :=
  (1 + (w : ℝ) / ((l : ℝ) - w - 1)) * ((1 + (k : ℝ) / ((w : ℝ) - k - 1)) * e)

end TTS
