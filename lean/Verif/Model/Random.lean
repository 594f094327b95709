import Verif.Model.DRM

/-!
# Model of the random tensors (`random` of the tensor classes in `tt_sketch/tensor.py`)

`TensorTrain.random` is in `Model/DRM.lean` (the DRMs use it).  A missing seed makes numpy draw one, so `seed=None` is
some seed; theorems hold for all seeds and all outcomes of the generators.
-/

namespace TTS

open Finset

variable {K : Type*}

/-- `utils.py` 223-227 with 191-199: `random_normal(shape, seed)`.  For the shape `()`, `np.prod` is the float `1.0`, which
`np.empty` rejects. -/
def randomArray [CommSemiring K] (env : Env K) (shape : List ℕ) (seed : ℕ) : Except PyErr (ND K) :=
  if shape = [] then .error .typeError
  else .ok (ND.ofFn shape fun i => env.randomNormal seed shape.prod (ravel shape i))

/-- `tensor.py` 180-182: `DenseTensor.random`. -/
def denseRandom [CommSemiring K] (env : Env K) (shape : List ℕ) (seed : ℕ) : Except PyErr (ND K) :=
  randomArray env shape seed

/-- `tensor.py` 257-270: `SparseTensor.random`.  `choice seed n k` is the outcome of
`np.random.choice(n, size=k, replace=False)` after `np.random.seed(seed)` (which rejects seeds from `2^32` on);
`np.random.choice` rejects samples larger than the population and, for the shape `()`, the float population `1.0`.
`fresh` is the seed numpy draws if none is given. -/
def Sparse.random [CommSemiring K] (env : Env K) (choice : Option ℕ → ℕ → ℕ → List ℕ) (fresh : ℕ) (shape : List ℕ)
    (nnz : ℕ) (seed : Option ℕ) : Except PyErr (Sparse K) :=
  if ∃ s, seed = some s ∧ 2 ^ 32 ≤ s then .error .valueError
  else if shape = [] then .error .valueError
  else if shape.prod < nnz then .error .valueError
  else .ok ⟨shape, (choice seed shape.prod nnz).mapIdx fun k f =>
    (unravel shape f, env.randomNormal (seed.getD fresh) nnz k)⟩

/-- `tensor.py` 713-716: factor number `i` of `CPTensor.random`. -/
def CP.randomCore [CommSemiring K] (env : Env K) (shape : List ℕ) (rank seed i : ℕ) : ND K :=
  (ND.ofFn [shape.getD i 0, rank] fun ij =>
    env.randomNormal (env.genState seed shape.length i) (shape.getD i 0 * rank) (ravel [shape.getD i 0, rank] ij)).smul
      (env.invSqrt (shape.getD i 0))

/-- `tensor.py` 705-718: `CPTensor.random`; the constructor (line 685) reads `cores[0]`. -/
def CP.random [CommSemiring K] (env : Env K) (shape : List ℕ) (rank seed : ℕ) : Except PyErr (CP K) :=
  if shape = [] then .error .indexError
  else .ok ⟨(List.range shape.length).map (CP.randomCore env shape rank seed)⟩

/-- `tensor.py` 800-804: the rank tuple of `TuckerTensor.random`, every rank cut to the mode size (`zip` stops at the
shorter of the two). -/
def Tucker.randomRank (shape : List ℕ) : RankArg → List ℕ
  | .int r => List.zipWith min (List.replicate shape.length r) shape
  | .seq rs => List.zipWith min rs shape

/-- `tensor.py` 811-814: factor number `i` of `TuckerTensor.random`, of a tensor whose `shape` argument has `d` modes. -/
def Tucker.randomFactor [CommSemiring K] (env : Env K) (seed d i r n : ℕ) : ND K :=
  (env.qr (ND.matT (ND.ofFn [r, n] fun ij => env.randomNormal (env.genState seed d i) (r * n) (ravel [r, n] ij)))).1.matT

/-- `tensor.py` 792-816: `TuckerTensor.random`. -/
def Tucker.random [CommSemiring K] (env : Env K) (shape : List ℕ) (rank : RankArg) (seed : ℕ) :
    Except PyErr (Tucker K) :=
  let rk := Tucker.randomRank shape rank
  match randomArray env rk (env.genState seed 1 0) with
  | .error e => .error e
  | .ok core => .ok ⟨(List.range rk.length).map fun i =>
      Tucker.randomFactor env seed shape.length i (rk.getD i 0) (shape.getD i 0), core⟩

end TTS
