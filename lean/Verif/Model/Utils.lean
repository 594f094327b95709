import Verif.Model.Sketch
import Verif.Model.Numerics

/-!
# Model of the remaining helpers of `tt_sketch/utils.py`

`projector`, and the test tensors `hilbert_tensor` and `sqrt_tensor`.  `power_decay_tensor` (42-61) always raises
`NameError`, because `SeedSequence` is not imported in that module; it is not modelled.
-/

namespace TTS

/-- `utils.py` 112-119: `projector(X, Y)`; the parameter stands for `np.linalg.pinv`.  numpy raises `ValueError` if the
matrices do not have the same number of rows. -/
def projector (pinv : ND ℝ → ND ℝ) (X : ND ℝ) (Y : Option (ND ℝ)) : Except PyErr (ND ℝ) :=
  let Y := Y.getD X
  if Y.dim 0 ≠ X.dim 0 then .error .valueError
  else .ok ((X.matmul (pinv (Y.matT.matmul X))).matmul Y.matT)

/-- The first two entries of a list exchanged: what the default `indexing="xy"` of `np.meshgrid` does to the axes. -/
def swap01 {α : Type*} : List α → List α
  | a :: b :: l => b :: a :: l
  | l => l

/-- `np.meshgrid(*vals)` with the default `indexing="xy"`: array number `k` has the entries
`vals[k][j]`, where `j` is the index along axis `k`, after the first two axes have been exchanged. -/
def meshgrid (vals : List (List ℝ)) : List (ND ℝ) :=
  (List.range vals.length).map fun k =>
    ND.ofFn (swap01 (vals.map List.length)) fun i => (vals.getD k []).getD ((swap01 i).getD k 0) 0

/-- `np.sum(np.array(grid), axis=0)` for arrays of the shape `sh`. -/
def gridSum (sh : List ℕ) (grid : List (ND ℝ)) : ND ℝ := ND.ofFn sh fun i => (grid.map fun G => G.get i).sum

/-- `utils.py` 20-24: `hilbert_tensor(n_dims, size)`. -/
noncomputable def hilbertTensor (nDims size : ℕ) : ND ℝ :=
  let vals := List.replicate nDims ((List.range size).map fun k : ℕ => (k : ℝ))
  let s := gridSum (swap01 (vals.map List.length)) (meshgrid vals)
  ND.ofFn s.shape fun i => 1 / (s.get i + 1)

/-- `np.linspace(a, b, s)`: `s` numbers from `a` to `b`, only `a` if `s = 1`. -/
noncomputable def linspace (a b : ℝ) (s : ℕ) : List ℝ :=
  (List.range s).map fun k : ℕ => a + (k : ℝ) * ((b - a) / ((s : ℝ) - 1))

open Classical in
/-- `utils.py` 27-39: `sqrt_tensor(shape, a, b)`.  `np.stack` raises `ValueError` for an empty list of arrays.  If all
entries vanish, the division gives `nan` everywhere (`nonFinite`); an array without entries stays as it is. -/
noncomputable def sqrtTensor (shape : List ℕ) (a b : ℝ) : Except PyErr (ND ℝ) :=
  if shape = [] then .error .valueError
  else
    let vals := shape.map (linspace a b)
    let s := gridSum (swap01 (vals.map List.length)) (meshgrid vals)
    let X := ND.ofFn s.shape fun i => √ |s.get i|
    if X.frob = 0 ∧ X.size ≠ 0 then .error .nonFinite
    else .ok (ND.ofFn X.shape fun i => X.get i / X.frob)

end TTS
