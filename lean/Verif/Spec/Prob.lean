import Verif.Model.Sketch
import Mathlib.MeasureTheory.Constructions.BorelSpace.Basic
import Mathlib.MeasureTheory.Measure.Lebesgue.Basic

/-!
# Random number generators as random variables

The model leaves the outcomes of the generators open (fields `randomNormal` and `normalStream` of `Env`).  Here they
become random variables on a probability space.
-/

namespace TTS

open MeasureTheory

/-- A number drawn by the code: position `pos` of `random_normal` (`utils.py` 223) of total size `size` with seed `seed`,
or draw number `pos` of `np.random.normal` after `np.random.seed(seed)`. -/
inductive Draw
  | normal (seed size pos : ℕ)
  | stream (seed pos : ℕ)
  deriving DecidableEq

/-- The environment in which the numbers drawn are those given by `g`. -/
def Env.withDraws {K : Type*} [Zero K] (env : Env K) (g : Draw → K) : Env K :=
  { env with
    randomNormal := fun s n k => g (.normal s n k)
    normalStream := fun s k => g (.stream s k) }

/-- No seed is used for two arrays of different sizes. -/
def Draw.Compatible (T : Finset Draw) : Prop :=
  ∀ s n k n' k', Draw.normal s n k ∈ T → Draw.normal s n' k' ∈ T → n = n'

/-- Idealised generators: the joint distribution of finitely many different draws has a density.  (Independent standard
normal numbers do; draws from arrays of different size with the same seed are left out, because these repeat the same
numbers.) -/
structure ContinuousDraws {Ω : Type*} [MeasurableSpace Ω] (P : Measure Ω) (g : Ω → Draw → ℝ) : Prop where
  measurable : ∀ x, Measurable fun ω => g ω x
  density : ∀ T : Finset Draw, Draw.Compatible T → (P.map fun ω (x : T) => g ω x) ≪ volume

/-- The seed argument of the sketching functions, or the random one taken instead (`sketch.py` 56-59). -/
def Env.sketchSeed {K : Type*} [Zero K] (env : Env K) (seed : Option ℕ) : ℕ := seed.getD (env.freshSeed % 2 ^ 32)

/-- The seed of the right DRM that goes with it (`sketch.py` 133, 211), for a tensor with `d` modes. -/
def Env.rightSeed {K : Type*} [Zero K] (env : Env K) (sd d : ℕ) : ℕ := (((sd : ℤ) + env.strHash d) % 2 ^ 32).toNat

/-- The `d` words `SeedSequence(seed % (2^32 - 1))` produces, one for each core of a random tensor train, are different
(so that its cores are drawn with different seeds). -/
def Env.DistinctStates {K : Type*} [Zero K] (env : Env K) (seed d : ℕ) : Prop :=
  ∀ i < d, ∀ j < d, env.genState (seed % (2 ^ 32 - 1)) d i = env.genState (seed % (2 ^ 32 - 1)) d j → i = j

/-- The DRM classes whose matrices are drawn by a generator (those of the others are computed from hashes). -/
def DRMKind.Drawn (kind : DRMKind) : Prop := kind = .tensorTrain ∨ kind = .denseGaussian

end TTS
