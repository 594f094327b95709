import Verif.Spec.ApproxGmres
import Verif.Spec.ApproxPrecond

/-!
# Preconditioned GMRES with inexact linear algebra: what the preconditioner loses
-/

namespace TTS

/-- The error bound of C100 for one application of a preconditioner that takes the tensor train `t` to `z`: `ε` is the relative
error of the factorisation, `θ` that of the triangular solves. -/
noncomputable def precErr (ε θ : ℝ) (P : Precond) (t z : TT ℝ) : ℝ :=
  (ε + θ * (1 + ε)) * frobN P.A * z.coreNorms + ε * t.coreNorms

/-- The same, for the application of the preconditioner to `t`. -/
noncomputable def precLoss (la : LinAlg2) (ε θ : ℝ) (P : Precond) (t : TT ℝ) : ℝ :=
  match P.backward la t with
  | .ok z => precErr ε θ P t z
  | .error _ => 0

/-- The same, summed over the trains that the operator makes of `x`. -/
noncomputable def GmresArgs.loss (la : LinAlg2) (ε θ : ℝ) (a : GmresArgs) (P : Precond) (x : TT ℝ) : ℝ :=
  match a.A.call la [x] with
  | .ok ts => (ts.map (precLoss la ε θ P)).sum
  | .error _ => 0

end TTS
