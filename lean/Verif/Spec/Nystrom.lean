import Verif.Spec.OrthErr

/-! # Specification for the error of streaming sketches -/

namespace TTS

open Finset Matrix

/-- The four conditions that characterise the Moore-Penrose inverse. -/
structure IsPinv {m n : ℕ} (A : Matrix (Fin m) (Fin n) ℝ) (G : Matrix (Fin n) (Fin m) ℝ) : Prop where
  aga : A * G * A = A
  gag : G * A * G = G
  ag : (A * G)ᵀ = A * G
  ga : (G * A)ᵀ = G * A

/-- What the theorems assume about `scipy.linalg.lstsq(A, B)[0]`: it is the Moore-Penrose inverse of `A` times `B` (the
least squares solution of least norm). -/
def MPContract (env : Env ℝ) : Prop :=
  ∀ (A : ND ℝ) (m n : ℕ), A.shape = [m, n] → ∃ G : Matrix (Fin n) (Fin m) ℝ, IsPinv (A.asMatrix m n) G ∧
    ∀ (B : ND ℝ) (k : ℕ), B.shape = [m, k] → (env.lstsq A B).shape = [n, k] ∧
      (env.lstsq A B).asMatrix n k = G * B.asMatrix m k

/-- The `n × m` matrix with the entries `G b a`. -/
def matOf (n m : ℕ) (G : ℕ → ℕ → ℝ) : Matrix (Fin n) (Fin m) ℝ := fun b a => G b a

/-- The map `Z ↦ (A_k R) G (L Z_k)` on arrays of the shape of `A`, where `A_k` and `Z_k` are the unfoldings, `A_k R` has
`r` columns and `L` has `l` rows. -/
def oblique (A : ND ℝ) (L R : Mats ℝ) (k l r : ℕ) (G : ℕ → ℕ → ℝ) (Z : ND ℝ) : ND ℝ :=
  ND.ofFn A.shape fun i => ∑ b ∈ range r, rightSketch A R k (i.take k) b
    * ∑ a ∈ range l, G b a * leftSketch Z L k a (i.drop k)

/-- The maps for the bonds `1, …, k` one after the other, the last one first: `P₁ (P₂ (… (P_k Z)))`. -/
def obliques (A : ND ℝ) (L R : Mats ℝ) (l r : List ℕ) (G : ℕ → ℕ → ℕ → ℝ) : ℕ → ND ℝ → ND ℝ
  | 0, Z => Z
  | k + 1, Z => obliques A L R l r G k (oblique A L R (k + 1) (l.getD k 0) (r.getD k 0) (G k) Z)

/-- Difference of two arrays of the same shape. -/
def ND.minus (A B : ND ℝ) : ND ℝ := ND.ofFn A.shape fun i => A.get i - B.get i

/-- The matrix `L A_k R` for the bond behind mode `mu` (`k = mu + 1`), that is `Omega[mu]`. -/
def omegaMat (A : ND ℝ) (L R : Mats ℝ) (mu l r : ℕ) : Matrix (Fin l) (Fin r) ℝ :=
  matOf l r (omegaSpec A.shape A.get L R mu)

/-- `G mu` is the Moore-Penrose inverse of `Omega[mu]`, for every bond. -/
def PinvsOf (A : ND ℝ) (L R : Mats ℝ) (lr rr : List ℕ) (G : ℕ → ℕ → ℕ → ℝ) : Prop :=
  ∀ mu < A.shape.length - 1, IsPinv (omegaMat A L R mu (lr.getD mu 0) (rr.getD mu 0))
    (matOf (rr.getD mu 0) (lr.getD mu 0) (G mu))

/-- `‖P_mu Z‖ ≤ c mu ‖Z‖` for all bonds and all arrays `Z` of the shape of `A`. -/
def NormBounds (A : ND ℝ) (L R : Mats ℝ) (lr rr : List ℕ) (G : ℕ → ℕ → ℕ → ℝ) (c : ℕ → ℝ) : Prop :=
  ∀ mu < A.shape.length - 1, 0 ≤ c mu ∧ ∀ Z : ND ℝ, Z.shape = A.shape →
    √(normSq (oblique A L R (mu + 1) (lr.getD mu 0) (rr.getD mu 0) (G mu) Z)) ≤ c mu * √(normSq Z)

/-- `Y` is the streaming approximation of `A` with the sketching matrices `L`, `R`. -/
structure StreamApprox (A : ND ℝ) (L R : Mats ℝ) (lr rr : List ℕ) (Y : ND ℝ) : Prop where
  /-- it is `P_1 P_2 … P_(d-1) A` -/
  product : ∀ G, PinvsOf A L R lr rr G → Y = obliques A L R lr rr G (A.shape.length - 1) A
  /-- the error is bounded by the errors of the bonds, amplified by the norms of the projections before them -/
  error : ∀ G c, PinvsOf A L R lr rr G → NormBounds A L R lr rr G c →
    √(distSq A Y) ≤ ∑ mu ∈ range (A.shape.length - 1), (∏ nu ∈ range mu, c nu)
      * √(nystromErrSq A L R (mu + 1) (lr.getD mu 0) (rr.getD mu 0) (G mu))
  /-- if every `Omega[mu]` has full column rank, the error of a bond is at most `1 + c mu` times the error of any
  approximation of the unfolding within the range of the right sketch -/
  range : ∀ G c, PinvsOf A L R lr rr G → NormBounds A L R lr rr G c →
    (∀ mu < A.shape.length - 1, (omegaMat A L R mu (lr.getD mu 0) (rr.getD mu 0)).rank = rr.getD mu 0) →
    ∀ B : ℕ → ℕ → List ℕ → ℝ, √(distSq A Y) ≤ ∑ mu ∈ range (A.shape.length - 1), (∏ nu ∈ range mu, c nu)
      * ((1 + c mu) * √(rangeErrSq A R (mu + 1) (rr.getD mu 0) (B mu)))

end TTS
