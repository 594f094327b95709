import Verif.Model.Cookie
import Verif.Spec.Gmres

/-! # The parameter dependent problem of the cookie script -/

namespace TTS

open Finset

/-- Entry of the matrix `A₀ + θ₁ A₁ + θ₂ A₂ + …`. -/
def paramMatrix (A0 : ND ℝ) (As : List (ND ℝ)) (θ : List ℝ) (i j : ℕ) : ℝ :=
  A0.get [i, j] + (List.zipWith (fun A t => t * A.get [i, j]) As θ).sum

/-- The parameter values that belong to the grid indices `k`: `m` values from 0 to 10 for every parameter. -/
noncomputable def gridParams (m : ℕ) (k : List ℕ) : List ℝ := k.map fun q : ℕ => 10 * (q : ℝ) / ((m : ℝ) - 1)

/-- Sound data: square matrices of the same size and a right hand side of that size. -/
structure CookieData.Ok (D : CookieData) (n : ℕ) (A0 : ND ℝ) (As : List (ND ℝ)) : Prop where
  A : D.A = A0 :: As
  shape : ∀ B ∈ A0 :: As, B.shape = [n, n]
  b : D.b.length = n
  pos : 0 < n

end TTS
