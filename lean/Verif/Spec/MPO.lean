import Verif.Model.MPO
import Verif.Spec.Numerics

/-!
# What linear maps in the TT format mean
-/

namespace TTS

open Finset

variable {K : Type*}

/-- The cores are order-4 arrays with matching bond dimensions, from `r` to `s`. -/
def MPOChain [Zero K] : ℕ → List (ND K) → ℕ → Prop
  | r, [], s => r = s
  | r, C :: Cs, s => ∃ n m t, C.shape = [r, n, m, t] ∧ MPOChain t Cs s

/-- Well-formed MPO: at least one core, matching bonds, outer bonds `1`. -/
def MPO.Valid [Zero K] (A : MPO K) : Prop := A.cores ≠ [] ∧ MPOChain 1 A.cores 1

/-- Entry `(a, b)` of the product of the core slices `C₁[:, j₁, k₁, :] ⋯ C_d[:, j_d, k_d, :]`. -/
def mpoVal [CommSemiring K] : List (ND K) → List ℕ → List ℕ → ℕ → ℕ → K
  | [], [], [], a, b => if a = b then 1 else 0
  | C :: Cs, j :: js, k :: ks, a, b => ∑ t ∈ range (C.dim 3), C.get [a, j, k, t] * mpoVal Cs js ks t b
  | _, _, _, _, _ => 0

/-- `(j₁, k₁, j₂, k₂, …)` -/
def interleave : List ℕ → List ℕ → List ℕ
  | j :: js, k :: ks => j :: k :: interleave js ks
  | _, _ => []

/-- The matrix entry of an MPO: input multi-index `j`, output multi-index `k`. -/
def MPO.entry [CommSemiring K] (A : MPO K) (j k : List ℕ) : K := mpoVal A.cores j k 0 0

/-- What the theorems assume about `scipy.linalg.solve_triangular(R, B)` for an upper triangular square matrix `R` and
a right hand side with at least one column: it solves `R X = B` when the diagonal has no zero, and raises `LinAlgError`
otherwise. -/
def LinAlg2.SolveTriOk (la : LinAlg2) : Prop :=
  ∀ (R B : ND ℝ) (n k : ℕ), R.shape = [n, n] → B.shape = [n, k] → 0 < k → (∀ t < n, ∀ j < t, R.get [t, j] = 0) →
    ((∀ i < n, R.get [i, i] ≠ 0) → ∃ X, la.solveTri R B = .ok X ∧ X.shape = [n, k] ∧
      ∀ i < n, ∀ j < k, ∑ t ∈ range n, R.get [i, t] * X.get [t, j] = B.get [i, j]) ∧
    ((∃ i < n, R.get [i, i] = 0) → la.solveTri R B = .error .linAlgError)

/-- Entry `i` of the product of a tensor `f` with an `m × n` matrix `G` on mode `mu`. -/
def modeMul (G : ℕ → ℕ → ℝ) (n mu : ℕ) (f : List ℕ → ℝ) (i : List ℕ) : ℝ :=
  ∑ t ∈ range n, G (i.getD mu 0) t * f (i.set mu t)

/-- `G` is a left inverse of the `n × n` matrix `A`. -/
def IsInv (G : ℕ → ℕ → ℝ) (A : ND ℝ) (n : ℕ) : Prop :=
  ∀ i < n, ∀ j < n, ∑ t ∈ range n, G i t * A.get [t, j] = if i = j then 1 else 0

/-- What a map written by a user has to do: it takes a well-formed tensor train of its input shape with positive ranks
to one of its output shape with positive ranks, whose entries are the matrix `M` (input multi-index first) applied to
those of the argument. -/
def UserMap.Kernel (u : UserMap) (M : List ℕ → List ℕ → ℝ) : Prop :=
  ∀ X : TT ℝ, X.Valid → X.Pos → X.shape = u.inShape → ∃ Y, u.call X = .ok Y ∧ Y.Valid ∧ Y.shape = u.outShape ∧
    (∀ r ∈ Y.rank, 0 < r) ∧
    ∀ k, InR u.outShape k → Y.toNumpy.get k = sumIdx u.inShape fun j => M j k * X.toNumpy.get j

/-- A well-formed linear map: a well-formed MPO, a preconditioner made from an invertible matrix of the size of its
mode, or a user's map that acts as some matrix. -/
def LinMap.Ok (la : LinAlg2) : LinMap → Prop
  | .mpo A => A.Valid
  | .precond P => ∃ A n, P = Precond.new la A P.shape P.mode ∧ A.shape = [n, n] ∧ (A.asMatrix n n).det ≠ 0 ∧
    P.mode < P.shape.length ∧ P.shape.getD P.mode 0 = n
  | .user u => u.inShape ≠ [] ∧ ∃ M, u.Kernel M

/-- The map takes the tensor with entries `f` to the tensor with entries `g`: for an MPO or a user's map, `g` is the
matrix applied to `f`; for a preconditioner, `f` is the matrix applied to the chosen mode of `g`. -/
def LinMap.Maps (m : LinMap) (f g : List ℕ → ℝ) : Prop :=
  match m with
  | .mpo A => ∀ k, InR A.outShape k → g k = sumIdx A.inShape fun j => A.toNumpy.get (interleave j k) * f j
  | .precond P => ∀ k, InR P.shape k →
    f k = modeMul (fun i j => P.A.get [i, j]) (P.shape.getD P.mode 0) P.mode g k
  | .user u => ∃ M, u.Kernel M ∧ ∀ k, InR u.outShape k → g k = sumIdx u.inShape fun j => M j k * f j

end TTS
