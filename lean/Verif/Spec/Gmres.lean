import Verif.Model.Gmres
import Verif.Spec.MPO

/-!
# What rounding and solving mean
-/

namespace TTS

open Finset

/-- Tensor trains of one shape, all well formed with positive mode sizes and ranks; at least one. -/
structure TTList (ts : List (TT ℝ)) (s : List ℕ) : Prop where
  ne : ts ≠ []
  each : ∀ t ∈ ts, t.Valid ∧ t.Pos ∧ t.shape = s

/-- Hypotheses on the rank request: one positive rank per bond. -/
structure RankOk (s : List ℕ) (a : RankArg) : Prop where
  len : (askedRanks s a).length + 1 = s.length
  pos : ∀ r ∈ askedRanks s a, 0 < r

/-- What the rounding methods need of the external routines. -/
structure RoundEnv (env : Env ℝ) (la : LinAlg) : Prop where
  qr : la.QROk
  svd : la.SVDOk
  lstsq : LstsqContract env
  qrE : QRContract env

/-- `H` (an `m × n` matrix) has full column rank. -/
def FullColumnRank (H : ND ℝ) (m n : ℕ) : Prop :=
  ∀ z : ℕ → ℝ, (∀ i < m, ∑ t ∈ range n, H.get [i, t] * z t = 0) → ∀ t < n, z t = 0

/-- Squared residual of `z` for the system `H z = e`. -/
def residSq (H : ND ℝ) (e : List ℝ) (m n : ℕ) (z : ℕ → ℝ) : ℝ :=
  ∑ i ∈ range m, (e.getD i 0 - ∑ t ∈ range n, H.get [i, t] * z t) ^ 2

/-- What the theorems assume about `y, residuals, _, _ = np.linalg.lstsq(H, e, rcond=None)` for an `m × n` matrix with
`n < m` (numpy's documentation): `y` is a least squares solution, and `residuals` holds the squared residual if `H` has
full column rank and is empty otherwise. -/
def LinAlg2.LstsqOk (la : LinAlg2) : Prop :=
  ∀ (H : ND ℝ) (e : List ℝ) (m n : ℕ), H.shape = [m, n] → e.length = m → n < m →
    (la.lstsq H e).1.length = n ∧
    (∀ z, residSq H e m n (fun t => (la.lstsq H e).1.getD t 0) ≤ residSq H e m n z) ∧
    (FullColumnRank H m n → (la.lstsq H e).2 = [residSq H e m n fun t => (la.lstsq H e).1.getD t 0]) ∧
    (¬ FullColumnRank H m n → (la.lstsq H e).2 = [])

/-- Squared residual of `z` for the `(k+1) × k` system `h z = beta e_1`. -/
def lsq (h : ℕ → ℕ → ℝ) (beta : ℝ) (k : ℕ) (z : ℕ → ℝ) : ℝ :=
  ∑ i ∈ range (k + 1), ((if i = 0 then beta else 0) - ∑ t ∈ range k, h i t * z t) ^ 2

/-- `g` is the sum of the images of `f` under the given maps (on arrays of shape `s`). -/
def MapsSum (maps : List LinMap) (s : List ℕ) (f g : List ℕ → ℝ) : Prop :=
  ∃ G : LinMap → List ℕ → ℝ, (∀ m ∈ maps, m.Maps f (G m)) ∧ ∀ k, InR s k → g k = (maps.map fun m => G m k).sum

/-- `g` is what the preconditioner, if any, makes of `f`. -/
def PrecMaps (P : Option Precond) (s : List ℕ) (f g : List ℕ → ℝ) : Prop :=
  match P with
  | none => ∀ k, InR s k → g k = f k
  | some P => (LinMap.precond P).Maps f g

/-- `g` is the preconditioned operator of the system applied to `f`. -/
def GmresArgs.Image (a : GmresArgs) (f g : List ℕ → ℝ) : Prop :=
  ∃ u, MapsSum a.A.maps a.b.shape f u ∧ PrecMaps a.precond a.b.shape u g

/-- The entries of the initial guess (zero by default). -/
def GmresArgs.guess (a : GmresArgs) : List ℕ → ℝ :=
  match a.x0 with
  | some x => x.toNumpy.get
  | none => 0

/-- The preconditioned operator is self-adjoint. -/
def GmresArgs.SelfAdjoint (a : GmresArgs) : Prop :=
  ∀ f f' g g', a.Image f f' → a.Image g g' →
    sumIdx a.b.shape (fun i => f' i * g i) = sumIdx a.b.shape fun i => f i * g' i

/-- Euclidean norm of an array of shape `s`. -/
noncomputable def fnorm (s : List ℕ) (f : List ℕ → ℝ) : ℝ := √ (sumIdx s fun i => f i ^ 2)

/-- The error made by a call of `round_tt_sum`. -/
def RoundCall.err (c : RoundCall) (i : List ℕ) : ℝ := c.result.toNumpy.get i - (ttSum c.summands).toNumpy.get i

/-- A call that never occurs (default value for lists of calls). -/
def noCall : RoundCall := ⟨[], none, ⟨[]⟩⟩

/-- The call lost nothing. -/
def RoundCall.Exact (c : RoundCall) : Prop := c.result.toNumpy = (ttSum c.summands).toNumpy

/-- The method of the last rounding: `rounding_method_final`, by default `rounding_method`. -/
def GmresArgs.lastMethod (a : GmresArgs) : RoundMode := if a.methodFinal = .none then a.method else a.methodFinal

/-- The maximal rank of the result: `final_round_rank`, by default `max_rank`. -/
def GmresArgs.lastRank (a : GmresArgs) : RankArg := a.finalRoundRank.getD a.maxRank

/-- Well-formed arguments: the operator is a sum of well-formed maps from the shape of `b` to itself, MPOs among them
with positive ranks; `b` and the initial guess are well formed with at least two modes and positive sizes and ranks; the
preconditioner, if any, is made from an invertible matrix of the right size; positive ranks are asked for, one per bond;
the rounding methods are known ones. -/
structure GmresArgs.Ok (la : LinAlg2) (a : GmresArgs) : Prop where
  op : LinMapSum.new a.A.maps = .ok a.A
  maps : ∀ m ∈ a.A.maps, m.Ok la
  ranks : ∀ A, LinMap.mpo A ∈ a.A.maps → ∀ r ∈ A.rank, 0 < r
  inShape : a.A.inShape = a.b.shape
  outShape : a.A.outShape = a.b.shape
  b : a.b.Valid ∧ a.b.Pos
  modes : 2 ≤ a.b.shape.length
  x0 : ∀ x, a.x0 = some x → x.Valid ∧ x.Pos ∧ x.shape = a.b.shape
  precond : ∀ P, a.precond = some P → (LinMap.precond P).Ok la ∧ P.shape = a.b.shape
  maxRank : RankOk a.b.shape a.maxRank
  lastRank : RankOk a.b.shape a.lastRank
  method : a.method = .exact ∨ a.method = .pairwise ∨ a.method = .sketch ∨ a.method = .orthSketch
  lastMethod : a.lastMethod = .exact ∨ a.lastMethod = .pairwise ∨ a.lastMethod = .sketch ∨ a.lastMethod = .orthSketch

/-- What the external routines are assumed to do. -/
structure GmresEnv (env : ℕ → Env ℝ) (la : LinAlg2) : Prop where
  round : ∀ k, RoundEnv (env k) la.toLinAlg
  solve : la.SolveTriOk
  lstsq : la.LstsqOk

/-- The roundings of a run lose nothing: neither those with the maximal rank and method of the iterations (for whatever
accuracy `eps`) nor those with the rank and method of the final rounding. -/
def GmresArgs.Lossless (env : ℕ → Env ℝ) (la : LinAlg2) (a : GmresArgs) : Prop :=
  ∀ (k : ℕ) (ts : List (TT ℝ)), TTList ts a.b.shape →
    (∀ eps Y, roundTTSum (env k) la.toLinAlg ts (.seq (trimRanks a.b.shape (askedRanks a.b.shape a.maxRank))) eps a.method 2
      = .ok (.tt Y) → Y.toNumpy = (ttSum ts).toNumpy) ∧
    ∀ Y, roundTTSum (env k) la.toLinAlg ts a.lastRank none a.lastMethod 2 = .ok (.tt Y) →
      Y.toNumpy = (ttSum ts).toNumpy

/-- The preconditioned operator maps only zero to zero. -/
def GmresArgs.Injective (a : GmresArgs) : Prop := ∀ f, a.Image f 0 → ∀ i, InR a.b.shape i → f i = 0

/-- The array `f` solves the (preconditioned) system. -/
def GmresArgs.Solves (a : GmresArgs) (f : List ℕ → ℝ) : Prop :=
  ∃ bp, PrecMaps a.precond a.b.shape a.b.toNumpy.get bp ∧ a.Image f bp

end TTS
