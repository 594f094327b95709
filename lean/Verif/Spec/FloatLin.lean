import Verif.Model.FloatLin
import Verif.Spec.MPO

/-!
# What programs with tensor trains compute, and how often they round
-/

namespace TTS

/-- The MPO whose cores are the absolute values of the given ones. -/
def MPO.abs (A : MPO ℝ) : MPO ℝ := ⟨A.cores.map ND.abs⟩

namespace TTExpr

/-- The shape of the result. -/
def shape : TTExpr → List ℕ
  | .tt X => X.shape
  | .apply A _ => A.outShape
  | .add e _ => e.shape
  | .mul e _ => e.shape

/-- All given tensor trains and MPOs are well-formed and shapes match (`add` needs at least two modes). -/
def Valid : TTExpr → Prop
  | .tt X => X.Valid
  | .apply A e => A.Valid ∧ e.Valid ∧ e.shape = A.inShape
  | .add e f => e.Valid ∧ f.Valid ∧ e.shape = f.shape ∧ 2 ≤ e.shape.length
  | .mul e _ => e.Valid

/-- Entry `i` of the exact result, as a formula in the entries of the given tensors and matrices. -/
def entry : TTExpr → List ℕ → ℝ
  | .tt X, i => ttEntry X i
  | .apply A e, k => sumIdx A.inShape fun j => A.entry j k * e.entry j
  | .add e f, i => e.entry i + f.entry i
  | .mul e c, i => e.entry i * c

/-- The program with all given numbers replaced by their absolute values. -/
def abs : TTExpr → TTExpr
  | .tt X => .tt X.abs
  | .apply A e => .apply A.abs e.abs
  | .add e f => .add e.abs f.abs
  | .mul e c => .mul e.abs |c|

/-- The roundings that the numbers in each core go through: the size of the contracted mode for every application of an MPO,
one in the last core for every scaling. -/
def coreRounds : TTExpr → List ℕ
  | .tt X => X.cores.map fun _ => 0
  | .apply A e => List.zipWith (· + ·) A.inShape e.coreRounds
  | .add e f => List.zipWith max e.coreRounds f.coreRounds
  | .mul e _ => e.coreRounds.dropLast ++ [e.coreRounds.getLastD 0 + 1]

/-- The roundings that a product of numbers, one from each core, goes through. -/
def rounds (e : TTExpr) : ℕ := e.coreRounds.sum

end TTExpr
end TTS
