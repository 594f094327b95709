import Verif.Model.Random
import Verif.Spec.Ranks
import Verif.Spec.Numerics

/-!
# Specification of the random tensors
-/

namespace TTS

open Finset

variable {K : Type*}

/-- The random number at position `(a, j, b)` of core `i` of a random tensor train with ranks `rk`: the cores are filled
in row-major order, each from its own generator. -/
def ttDraw [Zero K] (env : Env K) (shape rk : List ℕ) (seed i a j b : ℕ) : K :=
  env.randomNormal (env.genState seed shape.length i)
    ((Spec.bonds rk).getD i 0 * shape.getD i 0 * (Spec.bonds rk).getD (i + 1) 0)
    ((a * shape.getD i 0 + j) * (Spec.bonds rk).getD (i + 1) 0 + b)

/-- What the theorems assume of `np.random.choice(n, size=k, replace=False)`: `k` distinct numbers below `n`. -/
def ChoiceContract (choice : Option ℕ → ℕ → ℕ → List ℕ) : Prop :=
  ∀ s n k, k ≤ n → (choice s n k).length = k ∧ (choice s n k).Nodup ∧ ∀ f ∈ choice s n k, f < n

/-- What one theorem assumes of `SeedSequence.generate_state`: asking for more numbers does not change the first one. -/
def StatePrefix [Zero K] (env : Env K) : Prop := ∀ s d, 0 < d → env.genState s d 0 = env.genState s 1 0

end TTS
