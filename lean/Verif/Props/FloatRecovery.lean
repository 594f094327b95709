import Verif.Props.FloatApriori

/-!
# C108 and C109: recovery up to a constant times the rounding errors
-/

namespace TTS.Props

open TTS Finset

theorem flErr_le {u : ℝ} (h0 : 0 ≤ u) (h1 : u ≤ 1) (n : ℕ) : flErr u n ≤ (2 ^ n - 1) * u := by
  unfold flErr
  induction n with
  | zero => simp
  | succ n ih =>
    have e : (1 : ℝ) ≤ 2 ^ n := one_le_pow₀ (by norm_num)
    have e1 := mul_le_mul_of_nonneg_right ih (show 0 ≤ 1 + u by linarith)
    have e2 := mul_le_mul_of_nonneg_left (show 1 + u ≤ 2 by linarith) (show 0 ≤ (2 ^ n - 1) * u from mul_nonneg (by linarith) h0)
    have e3 : (1 + u) ^ (n + 1) - 1 = ((1 + u) ^ n - 1) * (1 + u) + u := by ring
    have e4 : ((2 : ℝ) ^ (n + 1) - 1) * u = (2 ^ n - 1) * u * 2 + u := by ring
    linarith

theorem bond_lin {ε η T q σ ω ρ β eO eP o p c cc N : ℝ} (hε : 0 ≤ ε) (h1 : ε ≤ 1) (hη : ε ≤ η) (hq : 0 ≤ q) (hqT : q ≤ T)
    (hσ : 0 ≤ σ) (hω : 0 ≤ ω) (hρ : 0 ≤ ρ) (hβ : 0 ≤ β) (hO0 : 0 ≤ eO) (hO : eO ≤ o * η) (hP0 : 0 ≤ eP) (hP : eP ≤ p * η)
    (hc0 : 0 ≤ c) (hc : c ≤ cc) (hN : 0 ≤ N) :
    (q * ((N + 1) * ε * σ + 0 + (ε * ω + (1 + ε) * eO) * ρ) + (2 * ε * ω + (1 + ε) * eO) * c + 2 * (1 + ε) * eP) * β
      ≤ ((T * ((N + 1) * σ + (ω + 2 * o) * ρ) + (2 * ω + 2 * o) * cc + 4 * p) * β) * η := by
  have h2 : 1 + ε ≤ 2 := by linarith
  have hη0 : 0 ≤ η := hε.trans hη
  calc (q * ((N + 1) * ε * σ + 0 + (ε * ω + (1 + ε) * eO) * ρ) + (2 * ε * ω + (1 + ε) * eO) * c + 2 * (1 + ε) * eP) * β
      ≤ (T * ((N + 1) * η * σ + 0 + (η * ω + 2 * (o * η)) * ρ) + (2 * η * ω + 2 * (o * η)) * cc + 2 * 2 * (p * η)) * β := by
        have a1 : 0 ≤ 2 * η * ω + 2 * (o * η) := by
          have := hO0.trans hO
          positivity
        have a2 : 0 ≤ T := hq.trans hqT
        gcongr
    _ = _ := by ring

theorem orthFloatBound_linear {A : ND ℝ} {L R : Mats ℝ} {lr rr : List ℕ} {B : ℕ → ℕ → List ℕ → ℝ} {H : ℕ → List ℕ → ℕ → ℝ}
    (h0 : ∀ mu < A.shape.length - 1, rangeErrSq A R (mu + 1) (rr.getD mu 0) (B mu) = 0 ∧
      fitErr A L R (mu + 1) (lr.getD mu 0) (rr.getD mu 0) (H mu) = 0) (g o p : ℕ → ℝ) (hg : ∀ mu, 0 ≤ g mu)
    (hp : ∀ mu, 0 ≤ p mu) :
    ∃ K : ℝ, ∀ ε u : ℝ, 0 ≤ ε → ε ≤ 1 → 0 ≤ u → u ≤ 1 → ∀ eO eP : ℕ → ℝ, (∀ mu, 0 ≤ eO mu ∧ eO mu ≤ o mu * (ε + u)) →
      (∀ mu, 0 ≤ eP mu ∧ eP mu ≤ p mu * (ε + u)) →
      orthFloatBound ε A L R lr rr eO eP B H (fun mu => 4 * (1 + ε) * g mu * ((1 + ε) ^ (A.shape.length - 1)
        * sketchedNorm A R (mu + 1) (rr.getD mu 0) + eP mu)) ≤ K * (ε + u) := by
  obtain ⟨N, hN⟩ : ∃ N, N = A.shape.length - 1 := ⟨_, rfl⟩
  obtain ⟨k, hk⟩ : ∃ k : ℕ → ℝ, k = fun mu => ((2 : ℝ) ^ N * (((N : ℝ) + 1) * sketchedNorm A R (mu + 1) (rr.getD mu 0)
      + (midNorm A L R (mu + 1) (lr.getD mu 0) (rr.getD mu 0) + 2 * o mu)
        * rowCoeffNorm A.shape (mu + 1) (lr.getD mu 0) (H mu))
      + (2 * midNorm A L R (mu + 1) (lr.getD mu 0) (rr.getD mu 0) + 2 * o mu)
        * (8 * g mu * (2 ^ N * sketchedNorm A R (mu + 1) (rr.getD mu 0) + p mu * 2)) + 4 * p mu)
      * coeffNorm A.shape (mu + 1) (rr.getD mu 0) (B mu) := ⟨_, rfl⟩
  refine ⟨√ (∑ mu ∈ range N, k mu ^ 2) + 2 * N * 2 ^ (2 * N) * frobN A + (1 + N * 2 ^ N) * p N,
    fun ε u hε h1 hu hu1 eO eP hO hP => ?_⟩
  unfold orthFloatBound
  rw [← hN] at h0 ⊢
  have pw : ∀ n : ℕ, (1 + ε) ^ n ≤ 2 ^ n := fun n => pow_le_pow_left₀ (by linarith) (by linarith) n
  have e1 : ∑ mu ∈ range N, rangeErrSq A R (mu + 1) (rr.getD mu 0) (B mu) = 0 :=
    sum_eq_zero fun mu hmu => (h0 mu (by simpa using hmu)).1
  rw [e1, Real.sqrt_zero, zero_add]
  have hη0 : 0 ≤ ε + u := by linarith
  obtain ⟨η, hη⟩ : ∃ η, η = ε + u := ⟨_, rfl⟩
  have hη2 : η ≤ 2 := by linarith
  have hεη : ε ≤ η := by linarith
  rw [← hη] at hO hP hη0 ⊢
  have e2 : √ (∑ mu ∈ range N, orthFloatBond ε A L R N (mu + 1) (lr.getD mu 0) (rr.getD mu 0) (B mu) (H mu)
        (4 * (1 + ε) * g mu * ((1 + ε) ^ N * sketchedNorm A R (mu + 1) (rr.getD mu 0) + eP mu)) (eO mu) (eP mu) ^ 2)
      ≤ √ (∑ mu ∈ range N, k mu ^ 2) * η := by
    have : √ (∑ mu ∈ range N, k mu ^ 2) * η = √ (∑ mu ∈ range N, (k mu * η) ^ 2) := by
      simp only [mul_pow]
      rw [← sum_mul, Real.sqrt_mul' _ (sq_nonneg η), Real.sqrt_sq hη0]
    rw [this]
    refine Real.sqrt_le_sqrt (sum_le_sum fun mu hmu => ?_)
    have hmu : mu < N := by simpa using hmu
    have s0 : 0 ≤ sketchedNorm A R (mu + 1) (rr.getD mu 0) := Real.sqrt_nonneg _
    have m0 : 0 ≤ midNorm A L R (mu + 1) (lr.getD mu 0) (rr.getD mu 0) := Real.sqrt_nonneg _
    have r0 : 0 ≤ rowCoeffNorm A.shape (mu + 1) (lr.getD mu 0) (H mu) := Real.sqrt_nonneg _
    have b0 : 0 ≤ coeffNorm A.shape (mu + 1) (rr.getD mu 0) (B mu) := Real.sqrt_nonneg _
    have g0 := hg mu
    obtain ⟨o0, o1⟩ := hO mu
    obtain ⟨q0, q1⟩ := hP mu
    unfold orthFloatBond
    rw [(h0 mu hmu).2, hk]
    beta_reduce
    generalize sketchedNorm A R (mu + 1) (rr.getD mu 0) = σ at *
    generalize midNorm A L R (mu + 1) (lr.getD mu 0) (rr.getD mu 0) = ω at *
    generalize rowCoeffNorm A.shape (mu + 1) (lr.getD mu 0) (H mu) = ρ at *
    generalize coeffNorm A.shape (mu + 1) (rr.getD mu 0) (B mu) = β at *
    have q2 : eP mu ≤ p mu * 2 := q1.trans (mul_le_mul_of_nonneg_left hη2 (hp mu))
    have hc : 4 * (1 + ε) * g mu * ((1 + ε) ^ N * σ + eP mu) ≤ 8 * g mu * (2 ^ N * σ + p mu * 2) := by
      have := pw N
      have h3 : 4 * (1 + ε) ≤ 8 := by linarith
      gcongr
    exact pow_le_pow_left₀ (by positivity) (bond_lin hε h1 hεη (by positivity) (pw N) s0 m0 r0 b0 o0 o1 q0 q1 (by positivity) hc
      (Nat.cast_nonneg N)) 2
  have e5 : 2 * (N : ℝ) * ε * (1 + ε) ^ (2 * N) * frobN A ≤ 2 * N * 2 ^ (2 * N) * frobN A * η := by
    have f0 := frobN_nonneg A
    have a := pw (2 * N)
    calc 2 * (N : ℝ) * ε * (1 + ε) ^ (2 * N) * frobN A ≤ 2 * (N : ℝ) * η * 2 ^ (2 * N) * frobN A := by gcongr
      _ = _ := by ring
  have e6 : (1 + (N : ℝ) * ε * (1 + ε) ^ N) * eP N ≤ (1 + N * 2 ^ N) * p N * η := by
    obtain ⟨q0, q1⟩ := hP N
    have a := pw N
    calc (1 + (N : ℝ) * ε * (1 + ε) ^ N) * eP N ≤ (1 + (N : ℝ) * 1 * 2 ^ N) * (p N * η) := by gcongr
      _ = _ := by ring
  linarith

theorem psiErrorBound_lin {u ε : ℝ} (hu : 0 ≤ u) (hu1 : u ≤ 1) (hε : 0 ≤ ε) (h1 : ε ≤ 1) (X : Tensor ℝ) (lr : List ℕ) (D : DRM ℝ)
    (R : Mats ℝ) (mu : ℕ) : 0 ≤ psiErrorBound u ε X lr D R mu ∧
    psiErrorBound u ε X lr D R mu ≤ psiErrorBound 1 1 X lr D R mu * (ε + u) := by
  unfold psiErrorBound
  obtain ⟨n, hn⟩ : ∃ n, n = X.psiTotal (orthDRM lr X.shape []) D mu := ⟨_, rfl⟩
  rw [← hn]
  have f := flErr_le hu hu1 n
  have f0 := flErr_nonneg hu n
  have f1 : flErr 1 n = 2 ^ n - 1 := by unfold flErr; norm_num
  have e : (1 : ℝ) ≤ 2 ^ n := one_le_pow₀ (by norm_num)
  have s0 : 0 ≤ sketchedNorm X.abs.toNumpy R (mu + 1) ((D.rank.reverse ++ [1]).getD mu 0) := Real.sqrt_nonneg _
  have q0 : 0 ≤ ∏ nu ∈ range mu, (1 + ε) * √ (lr.getD nu 0 : ℝ) :=
    prod_nonneg fun _ _ => mul_nonneg (by linarith) (Real.sqrt_nonneg _)
  have q1 : ∏ nu ∈ range mu, (1 + ε) * √ (lr.getD nu 0 : ℝ) ≤ ∏ nu ∈ range mu, (1 + 1) * √ (lr.getD nu 0 : ℝ) :=
    prod_le_prod (fun _ _ => mul_nonneg (by linarith) (Real.sqrt_nonneg _)) fun _ _ =>
      mul_le_mul_of_nonneg_right (by linarith) (Real.sqrt_nonneg _)
  refine ⟨mul_nonneg f0 (mul_nonneg q0 s0), ?_⟩
  rw [f1]
  have k1 := mul_le_mul f (mul_le_mul_of_nonneg_right q1 s0) (mul_nonneg q0 s0) (mul_nonneg (by linarith) hu)
  refine k1.trans ?_
  have k2 := mul_le_mul_of_nonneg_left (show u ≤ ε + u by linarith)
    (mul_nonneg (show (0 : ℝ) ≤ 2 ^ n - 1 by linarith) (mul_nonneg (q0.trans q1) s0))
  linarith

theorem omegaError_lin {u : ℝ} (hu : 0 ≤ u) (hu1 : u ≤ 1) (X : Tensor ℝ) (l r : DRM ℝ)
    (L R : Mats ℝ) (mu : ℕ) : omegaError u X l r L R mu ≤ omegaError 1 X l r L R mu * u := by
  unfold omegaError
  obtain ⟨n, hn⟩ : ∃ n, n = X.omegaTotal l r mu := ⟨_, rfl⟩
  rw [← hn]
  have f := flErr_le hu hu1 n
  have f1 : flErr 1 n = 2 ^ n - 1 := by unfold flErr; norm_num
  have m0 : 0 ≤ midNorm X.abs.toNumpy L R (mu + 1) (l.rank.getD mu 0) (r.rank.reverse.getD mu 0) := Real.sqrt_nonneg _
  rw [f1]
  have := mul_le_mul_of_nonneg_right f m0
  linarith

/-- **C109, recovery up to rounding.** If every `Omega[mu]` has full row rank and the rank of the unfolding, then there is a
constant that depends only on the tensor and the DRMs such that, for all sufficiently accurate routines and arithmetic, the error
of `orthogonal_sketch` is at most that constant times the error of the routines plus the unit roundoff. -/
theorem C109_recovery (env : Env ℝ) (X : Tensor ℝ) (l r : DRM ℝ) (hX : X.Valid)
    (hne : X.NonEmpty) (hd : 2 ≤ X.shape.length) (hdist : X.Distinct) (hx : ∀ t ∈ X.summands, t.RightExact)
    (p1 : ∀ n ∈ X.shape, 0 < n) (p2 : ∀ r ∈ l.rank, 0 < r)
    (hrank : ∀ mu < X.shape.length - 1, (Matrix.of fun (a : Fin (l.rank.getD mu 0)) (b : Fin (r.rank.reverse.getD mu 0)) =>
      midSketch X.toNumpy (l.leftMats env) (r.rightMats env) (mu + 1) a b).rank = (X.toNumpy.unfolding (mu + 1)).rank)
    (hfull : ∀ mu < X.shape.length - 1, (X.toNumpy.unfolding (mu + 1)).rank = l.rank.getD mu 0) :
    ∃ K δ : ℝ, 0 < δ ∧ ∀ (qr : ND ℝ → ND ℝ × ND ℝ) (lsq : ND ℝ → ND ℝ → ND ℝ) (ε u : ℝ), 0 ≤ ε → ε ≤ δ → 0 ≤ u → u ≤ δ →
      QRApproxContract { env with qr := qr, lstsq := lsq } ε → LstsqApproxContract { env with qr := qr, lstsq := lsq } ε →
      ∀ (lrank rrank : RankArg) (kw : SketchKw ℝ) (Y : TT ℝ), kw.Good →
        FlOrthogonalSketch u { env with qr := qr, lstsq := lsq } X lrank rrank kw Y l r →
        frobD X.toNumpy Y.toNumpy ≤ K * (ε + u) := by
  have hsh := Tensor.toNumpy_shape hX
  have hln : X.toNumpy.shape.length = X.shape.length := by rw [hsh]
  have hr' : ∀ mu < X.toNumpy.shape.length - 1, (Matrix.of fun (a : Fin (l.rank.getD mu 0))
      (b : Fin (r.rank.reverse.getD mu 0)) => midSketch X.toNumpy (l.leftMats env) (r.rightMats env) (mu + 1) a b).rank
      = (X.toNumpy.unfolding (mu + 1)).rank := fun mu hmu => hrank mu (by rw [← hln]; exact hmu)
  obtain ⟨_, δ0, _, _, G, d0, hK0⟩ := recovery_core (A := X.toNumpy) (L := l.leftMats env) (R := r.rightMats env)
    (lr := l.rank) (rr := r.rank.reverse) hr' (fun mu hmu => hfull mu (by rw [← hln]; exact hmu))
  obtain ⟨g1, g2, -, -⟩ := hK0 0 le_rfl d0.le
  obtain ⟨B, H, hBH⟩ := C97_coeffs X.toNumpy (l.leftMats env) (r.rightMats env) l.rank r.rank.reverse hr'
  obtain ⟨K, hK⟩ := orthFloatBound_linear hBH (fun mu => frobN (G mu))
    (omegaError 1 X l r (l.absLeftMats env) (r.absRightMats env)) (psiErrorBound 1 1 X l.rank r (r.absRightMats env))
    (fun mu => frobN_nonneg _) fun mu => (psiErrorBound_lin zero_le_one le_rfl zero_le_one le_rfl X l.rank r _ mu).1
  obtain ⟨δ, e0, e1, hδ⟩ := small_eps (X.shape.length - 1) fun mu => frobN (G mu) * (midNorm X.toNumpy (l.leftMats env)
    (r.rightMats env) (mu + 1) (l.rank.getD mu 0) (r.rank.reverse.getD mu 0)
      + 2 * omegaError 1 X l r (l.absLeftMats env) (r.absRightMats env) mu)
  refine ⟨K, δ / 2, by linarith, fun qr lsq ε u hε h1 hu hu1 hQ hE lrank rrank kw Y hkw hY => ?_⟩
  rw [hln] at g1 g2 hK
  have o0 : ∀ v : ℝ, 0 ≤ v → ∀ mu, 0 ≤ omegaError v X l r (l.absLeftMats env) (r.absRightMats env) mu := fun v hv mu =>
    mul_nonneg (flErr_nonneg hv _) (Real.sqrt_nonneg _)
  have o1 := fun mu => omegaError_lin hu (by linarith) X l r (l.absLeftMats env) (r.absRightMats env) mu
  refine (C109_apriori u hu { env with qr := qr, lstsq := lsq } ε hε hQ hE X lrank rrank kw Y l r hkw hX hne hd hdist hx p1 p2 hY
    G g1 g2 (fun mu hmu => ?_) B H).trans (hK ε u hε (by linarith) hu (by linarith) _ _ (fun mu => ⟨o0 u hu mu, ?_⟩) fun mu => ?_)
  · have h2 := hδ (ε + u) (by linarith) (by linarith) mu hmu
    refine le_trans ?_ h2
    have m0 : 0 ≤ midNorm X.toNumpy (l.leftMats env) (r.rightMats env) (mu + 1) (l.rank.getD mu 0)
      (r.rank.reverse.getD mu 0) := Real.sqrt_nonneg _
    have k1 := o1 mu
    have k2 := o0 u hu mu
    have k3 := o0 1 zero_le_one mu
    have g0 := frobN_nonneg (G mu)
    show frobN (G mu) * (ε * midNorm X.toNumpy (l.leftMats env) (r.rightMats env) (mu + 1) (l.rank.getD mu 0)
      (r.rank.reverse.getD mu 0) + (1 + ε) * omegaError u X l r (l.absLeftMats env) (r.absRightMats env) mu) ≤ _
    have k4 := mul_le_mul_of_nonneg_right (show 1 + ε ≤ 2 by linarith) k2
    have k5 := mul_nonneg hu m0
    have k6 := mul_nonneg hε k3
    rw [show ∀ a b c : ℝ, a * (b * c) = b * (a * c) from fun a b c => by ring]
    refine mul_le_mul_of_nonneg_left ?_ g0
    linarith
  · exact (o1 mu).trans (mul_le_mul_of_nonneg_left (by linarith) (o0 1 zero_le_one mu))
  · exact psiErrorBound_lin hu (by linarith) hε (by linarith) X l.rank r _ mu

/-- **C109, dense arrays, a bound that does not depend on the run.** If every `Omega[mu]` has a right inverse `G mu` that is not too large
compared with the errors, the norms of the computed solutions and the rounding errors of the Psi cores can be bounded without
the run. -/
theorem C109_apriori_dense (u : ℝ) (hu : 0 ≤ u) (env : Env ℝ) (ε : ℝ) (hε : 0 ≤ ε) (hQ : QRApproxContract env ε)
    (hE : LstsqApproxContract env ε) (X : ND ℝ) (lrank rrank : RankArg) (kw : SketchKw ℝ) (Y : TT ℝ) (l r : DRM ℝ)
    (hkw : kw.Good) (hd : 2 ≤ X.shape.length) (p1 : ∀ n ∈ X.shape, 0 < n) (p2 : ∀ r ∈ l.rank, 0 < r)
    (h : FlOrthogonalSketch u env (.leaf (.dense X)) lrank rrank kw Y l r) (G : ℕ → ND ℝ)
    (hG : ∀ mu < X.shape.length - 1, (G mu).shape = [r.rank.reverse.getD mu 0, l.rank.getD mu 0])
    (hinv : ∀ mu < X.shape.length - 1, ∀ a < l.rank.getD mu 0, ∀ c < l.rank.getD mu 0,
      ∑ b ∈ range (r.rank.reverse.getD mu 0), midSketch X (l.leftMats env) (r.rightMatsDense env) (mu + 1) a b
        * (G mu).get [b, c] = if a = c then 1 else 0)
    (hsmall : ∀ mu < X.shape.length - 1, frobN (G mu) * (ε * midNorm X (l.leftMats env) (r.rightMatsDense env) (mu + 1)
      (l.rank.getD mu 0) (r.rank.reverse.getD mu 0)
        + (1 + ε) * omegaError u (.leaf (.dense X)) l r (l.absLeftMats env) (r.absRightMatsDense env) mu) ≤ 1 / 2)
    (B : ℕ → ℕ → List ℕ → ℝ) (H : ℕ → List ℕ → ℕ → ℝ) :
    frobD X Y.toNumpy ≤ orthFloatBound ε X (l.leftMats env) (r.rightMatsDense env) l.rank r.rank.reverse
      (omegaError u (.leaf (.dense X)) l r (l.absLeftMats env) (r.absRightMatsDense env)) (psiErrorBound u ε (.leaf (.dense X)) l.rank r (r.absRightMatsDense env)) B H
      fun mu => 4 * (1 + ε) * frobN (G mu) * ((1 + ε) ^ (X.shape.length - 1)
        * sketchedNorm X (r.rightMatsDense env) (mu + 1) (r.rank.reverse.getD mu 0)
        + psiErrorBound u ε (.leaf (.dense X)) l.rank r (r.absRightMatsDense env) mu) := by
  obtain ⟨h1, h2, h3, h4, S, -, h5, h6⟩ := C109_dense u hu env ε hε hQ hE X lrank rrank kw Y l r hkw hd p1 p2 h
  refine (h5 B H).trans (orthFloatBound_mono hε _ _ _ _ _ _ _ (fun mu => ?_) (fun mu _ => ?_) (fun mu hmu => ?_)
    (fun mu _ => frobN_nonneg _) fun mu hmu => ?_)
  · exact mul_nonneg (flErr_nonneg hu _) (Real.sqrt_nonneg _)
  · exact mul_nonneg (flErr_nonneg hu _) (psiSize_nonneg _ _ _ _ _)
  · exact psiError_le (X := .leaf (.dense X)) hu hε h1 h2 h3 h4 (show mu < X.shape.length by omega)
  · refine (h6 mu hmu (G mu) (hG mu hmu) (hinv mu hmu) (hsmall mu hmu)).trans
      (mul_le_mul_of_nonneg_left (add_le_add_right (psiError_le (X := .leaf (.dense X)) hu hε h1 h2 h3 h4 (show mu < X.shape.length by omega)) _)
        (mul_nonneg (by positivity) (frobN_nonneg _)))

/-- **C109, recovery up to rounding, dense arrays.** If every `Omega[mu]` has full row rank and the rank of the unfolding, then there is a
constant that depends only on the tensor and the DRMs such that, for all sufficiently accurate routines and arithmetic, the error
of `orthogonal_sketch` is at most that constant times the error of the routines plus the unit roundoff. -/
theorem C109_recovery_dense (env : Env ℝ) (X : ND ℝ) (l r : DRM ℝ) (hd : 2 ≤ X.shape.length)
    (p1 : ∀ n ∈ X.shape, 0 < n) (p2 : ∀ r ∈ l.rank, 0 < r)
    (hrank : ∀ mu < X.shape.length - 1, (Matrix.of fun (a : Fin (l.rank.getD mu 0)) (b : Fin (r.rank.reverse.getD mu 0)) =>
      midSketch X (l.leftMats env) (r.rightMatsDense env) (mu + 1) a b).rank = (X.unfolding (mu + 1)).rank)
    (hfull : ∀ mu < X.shape.length - 1, (X.unfolding (mu + 1)).rank = l.rank.getD mu 0) :
    ∃ K δ : ℝ, 0 < δ ∧ ∀ (qr : ND ℝ → ND ℝ × ND ℝ) (lsq : ND ℝ → ND ℝ → ND ℝ) (ε u : ℝ), 0 ≤ ε → ε ≤ δ → 0 ≤ u → u ≤ δ →
      QRApproxContract { env with qr := qr, lstsq := lsq } ε → LstsqApproxContract { env with qr := qr, lstsq := lsq } ε →
      ∀ (lrank rrank : RankArg) (kw : SketchKw ℝ) (Y : TT ℝ), kw.Good →
        FlOrthogonalSketch u { env with qr := qr, lstsq := lsq } (.leaf (.dense X)) lrank rrank kw Y l r →
        frobD X Y.toNumpy ≤ K * (ε + u) := by
  obtain ⟨_, δ0, _, _, G, d0, hK0⟩ := recovery_core (A := X) (L := l.leftMats env) (R := r.rightMatsDense env)
    (lr := l.rank) (rr := r.rank.reverse) hrank hfull
  obtain ⟨g1, g2, -, -⟩ := hK0 0 le_rfl d0.le
  obtain ⟨B, H, hBH⟩ := C97_coeffs X (l.leftMats env) (r.rightMatsDense env) l.rank r.rank.reverse hrank
  obtain ⟨K, hK⟩ := orthFloatBound_linear hBH (fun mu => frobN (G mu))
    (omegaError 1 (.leaf (.dense X)) l r (l.absLeftMats env) (r.absRightMatsDense env)) (psiErrorBound 1 1 (.leaf (.dense X)) l.rank r (r.absRightMatsDense env))
    (fun mu => frobN_nonneg _) fun mu => (psiErrorBound_lin zero_le_one le_rfl zero_le_one le_rfl (.leaf (.dense X)) l.rank r _ mu).1
  obtain ⟨δ, e0, e1, hδ⟩ := small_eps (X.shape.length - 1) fun mu => frobN (G mu) * (midNorm X (l.leftMats env)
    (r.rightMatsDense env) (mu + 1) (l.rank.getD mu 0) (r.rank.reverse.getD mu 0)
      + 2 * omegaError 1 (.leaf (.dense X)) l r (l.absLeftMats env) (r.absRightMatsDense env) mu)
  refine ⟨K, δ / 2, by linarith, fun qr lsq ε u hε h1 hu hu1 hQ hE lrank rrank kw Y hkw hY => ?_⟩
  have o0 : ∀ v : ℝ, 0 ≤ v → ∀ mu, 0 ≤ omegaError v (.leaf (.dense X)) l r (l.absLeftMats env) (r.absRightMatsDense env) mu := fun v hv mu =>
    mul_nonneg (flErr_nonneg hv _) (Real.sqrt_nonneg _)
  have o1 := fun mu => omegaError_lin hu (by linarith) (.leaf (.dense X)) l r (l.absLeftMats env) (r.absRightMatsDense env) mu
  refine (C109_apriori_dense u hu { env with qr := qr, lstsq := lsq } ε hε hQ hE X lrank rrank kw Y l r hkw hd p1 p2 hY
    G g1 g2 (fun mu hmu => ?_) B H).trans (hK ε u hε (by linarith) hu (by linarith) _ _ (fun mu => ⟨o0 u hu mu, ?_⟩) fun mu => ?_)
  · have h2 := hδ (ε + u) (by linarith) (by linarith) mu hmu
    refine le_trans ?_ h2
    have m0 : 0 ≤ midNorm X (l.leftMats env) (r.rightMatsDense env) (mu + 1) (l.rank.getD mu 0)
      (r.rank.reverse.getD mu 0) := Real.sqrt_nonneg _
    have k1 := o1 mu
    have k2 := o0 u hu mu
    have k3 := o0 1 zero_le_one mu
    have g0 := frobN_nonneg (G mu)
    show frobN (G mu) * (ε * midNorm X (l.leftMats env) (r.rightMatsDense env) (mu + 1) (l.rank.getD mu 0)
      (r.rank.reverse.getD mu 0) + (1 + ε) * omegaError u (.leaf (.dense X)) l r (l.absLeftMats env) (r.absRightMatsDense env) mu) ≤ _
    have k4 := mul_le_mul_of_nonneg_right (show 1 + ε ≤ 2 by linarith) k2
    have k5 := mul_nonneg hu m0
    have k6 := mul_nonneg hε k3
    rw [show ∀ a b c : ℝ, a * (b * c) = b * (a * c) from fun a b c => by ring]
    refine mul_le_mul_of_nonneg_left ?_ g0
    linarith
  · exact (o1 mu).trans (mul_le_mul_of_nonneg_left (by linarith) (o0 1 zero_le_one mu))
  · exact psiErrorBound_lin hu (by linarith) hε (by linarith) (.leaf (.dense X)) l.rank r _ mu

/-- **C108, recovery up to rounding.** If the coefficient matrices `B` give the unfoldings back exactly, the error of `hmt_sketch`
is at most a constant times the error of the QR factorisations plus the unit roundoff. -/
theorem C108_recovery_linear (env : Env ℝ) (X : Tensor ℝ) (D : DRM ℝ) (hX : X.Valid) (hne : X.NonEmpty)
    (hd : 2 ≤ X.shape.length) (hdist : X.Distinct) (hx : ∀ t ∈ X.summands, t.RightExact)
    (p1 : ∀ n ∈ X.shape, 0 < n) (p2 : ∀ r ∈ D.rank, 0 < r) (B : ℕ → ℕ → List ℕ → ℝ)
    (hB : ∀ mu < X.shape.length - 1,
      rangeErrSq X.toNumpy (D.rightMats env) (mu + 1) (D.rank.reverse.getD mu 0) (B mu) = 0) :
    ∃ K : ℝ, ∀ (qr : ND ℝ → ND ℝ × ND ℝ) (ε u : ℝ), 0 ≤ ε → ε ≤ 1 → 0 ≤ u → u ≤ 1 →
      QRApproxContract { env with qr := qr } ε →
      ∀ (rank : RankArg) (seed : Option ℕ) (kind : Option DRMKind) (drm : Option (DRM ℝ)) (Y : TT ℝ),
        (∀ D, drm = some D → D.WF ∧ D.toDRMBase.Full ∧ D.transpose = true) →
        hmtDRM { env with qr := qr } X.shape rank (seed.getD (env.freshSeed % 2 ^ 32)) kind drm = .ok D →
        FlHmtSketch u { env with qr := qr } X rank seed kind drm Y → frobD X.toNumpy Y.toNumpy ≤ K * (ε + u) := by
  obtain ⟨N, hN⟩ : ∃ N, N = X.shape.length - 1 := ⟨_, rfl⟩
  obtain ⟨k, hk⟩ : ∃ k : ℕ → ℝ, k = fun mu => ((N : ℝ) * 2 ^ N * sketchedNorm X.toNumpy (D.rightMats env) (mu + 1)
      (D.rank.reverse.getD mu 0) + 2 * psiErrorBound 1 1 X D.rank.reverse D (D.absRightMats env) mu)
      * coeffNorm X.toNumpy.shape (mu + 1) (D.rank.reverse.getD mu 0) (B mu) := ⟨_, rfl⟩
  refine ⟨√ (∑ mu ∈ range N, k mu ^ 2) + 2 * N * 2 ^ (2 * N) * frobN X.toNumpy
    + (1 + N * 2 ^ N) * psiErrorBound 1 1 X D.rank.reverse D (D.absRightMats env) N,
    fun qr ε u hε h1 hu hu1 hQ rank seed kind drm Y hg hD hY => ?_⟩
  have hb := C108_apriori u hu { env with qr := qr } ε hε hQ X rank seed kind drm Y D hg hX hne hd hdist hx p1 p2 hD hY B
  have hln : X.toNumpy.shape.length - 1 = N := by rw [Tensor.toNumpy_shape hX, hN]
  have r1 : D.rightMats { env with qr := qr } = D.rightMats env := rfl
  have r2 : D.absRightMats { env with qr := qr } = D.absRightMats env := rfl
  rw [r1, r2, sum_eq_zero fun mu hmu => hB mu (by simpa using hmu), Real.sqrt_zero, zero_add] at hb
  refine hb.trans ?_
  unfold hmtFloatRounding
  rw [hln]
  have pw : ∀ n : ℕ, (1 + ε) ^ n ≤ 2 ^ n := fun n => pow_le_pow_left₀ (by linarith) (by linarith) n
  have hP := fun mu => psiErrorBound_lin hu hu1 hε h1 X D.rank.reverse D (D.absRightMats env) mu
  have hη0 : 0 ≤ ε + u := by linarith
  obtain ⟨η, hη⟩ : ∃ η, η = ε + u := ⟨_, rfl⟩
  have hεη : ε ≤ η := by linarith
  rw [← hη] at hP hη0 ⊢
  have e2 : √ (∑ mu ∈ range N, (((N : ℝ) * ε * (1 + ε) ^ N * sketchedNorm X.toNumpy (D.rightMats env) (mu + 1)
        (D.rank.reverse.getD mu 0) + (1 + ε) * psiErrorBound u ε X D.rank.reverse D (D.absRightMats env) mu)
        * coeffNorm X.toNumpy.shape (mu + 1) (D.rank.reverse.getD mu 0) (B mu)) ^ 2)
      ≤ √ (∑ mu ∈ range N, k mu ^ 2) * η := by
    have : √ (∑ mu ∈ range N, k mu ^ 2) * η = √ (∑ mu ∈ range N, (k mu * η) ^ 2) := by
      simp only [mul_pow]
      rw [← sum_mul, Real.sqrt_mul' _ (sq_nonneg η), Real.sqrt_sq hη0]
    rw [this]
    refine Real.sqrt_le_sqrt (sum_le_sum fun mu hmu => ?_)
    obtain ⟨q0, q1⟩ := hP mu
    have s0 : 0 ≤ sketchedNorm X.toNumpy (D.rightMats env) (mu + 1) (D.rank.reverse.getD mu 0) := Real.sqrt_nonneg _
    have b0 : 0 ≤ coeffNorm X.toNumpy.shape (mu + 1) (D.rank.reverse.getD mu 0) (B mu) := Real.sqrt_nonneg _
    rw [hk]
    beta_reduce
    generalize sketchedNorm X.toNumpy (D.rightMats env) (mu + 1) (D.rank.reverse.getD mu 0) = σ at *
    generalize coeffNorm X.toNumpy.shape (mu + 1) (D.rank.reverse.getD mu 0) (B mu) = β at *
    generalize psiErrorBound u ε X D.rank.reverse D (D.absRightMats env) mu = P at *
    generalize psiErrorBound 1 1 X D.rank.reverse D (D.absRightMats env) mu = P1 at *
    refine pow_le_pow_left₀ (by positivity) ?_ 2
    have a := pw N
    have h2 : 1 + ε ≤ 2 := by linarith
    calc ((N : ℝ) * ε * (1 + ε) ^ N * σ + (1 + ε) * P) * β ≤ ((N : ℝ) * η * 2 ^ N * σ + 2 * (P1 * η)) * β := by gcongr
      _ = _ := by ring
  have e5 : 2 * (N : ℝ) * ε * (1 + ε) ^ (2 * N) * frobN X.toNumpy ≤ 2 * N * 2 ^ (2 * N) * frobN X.toNumpy * η := by
    have f0 := frobN_nonneg X.toNumpy
    have a := pw (2 * N)
    calc 2 * (N : ℝ) * ε * (1 + ε) ^ (2 * N) * frobN X.toNumpy ≤ 2 * (N : ℝ) * η * 2 ^ (2 * N) * frobN X.toNumpy := by gcongr
      _ = _ := by ring
  have e6 : (1 + (N : ℝ) * ε * (1 + ε) ^ N) * psiErrorBound u ε X D.rank.reverse D (D.absRightMats env) N
      ≤ (1 + N * 2 ^ N) * psiErrorBound 1 1 X D.rank.reverse D (D.absRightMats env) N * η := by
    obtain ⟨q0, q1⟩ := hP N
    have a := pw N
    calc (1 + (N : ℝ) * ε * (1 + ε) ^ N) * psiErrorBound u ε X D.rank.reverse D (D.absRightMats env) N
        ≤ (1 + (N : ℝ) * 1 * 2 ^ N) * (psiErrorBound 1 1 X D.rank.reverse D (D.absRightMats env) N * η) := by gcongr
      _ = _ := by ring
  linarith

/-! ### Example -/

/-- `C109_recovery` applies: with routines of error at most `ε` and unit roundoff `u` the tensor `x8` is recovered up to a
constant times `ε + u`. -/
example : ∃ K δ : ℝ, 0 < δ ∧ ∀ ε u : ℝ, 0 ≤ ε → ε ≤ δ → 0 ≤ u → u ≤ δ → ∃ Y, FlOrthogonalSketch u (badBoth ε env8) (.leaf (.sparse x8))
    (.seq [1, 1]) (.seq [2, 2]) { left := some l8, right := some r8 } Y l8 r8 ∧
      frobD x8.toNumpy Y.toNumpy ≤ K * (ε + u) := by
  have p1 : ∀ n ∈ (Tensor.leaf (.sparse x8)).shape, 0 < n := by show ∀ n ∈ [2, 3, 2], 0 < n; decide
  have p2 : ∀ r ∈ l8.rank, 0 < r := by show ∀ n ∈ [1, 1], 0 < n; decide
  have hsh := Tensor.toNumpy_shape x8_valid
  have e : ∀ mu, (Matrix.of fun (a : Fin (l8.rank.getD mu 0)) (b : Fin (r8.rank.reverse.getD mu 0)) =>
      midSketch (Tensor.leaf (.sparse x8)).toNumpy (l8.leftMats env8) (r8.rightMats env8) (mu + 1) a b)
      = Matrix.of fun (a : Fin (l8.rank.getD mu 0)) (b : Fin (r8.rank.reverse.getD mu 0)) =>
      omegaSpec [2, 3, 2] (Tensor.leaf (.sparse x8)).toNumpy.get (l8.leftMats env8) (r8.rightMats env8) mu a b := by
    intro mu
    ext a b
    show midSketch _ _ _ _ _ _ = omegaSpec _ _ _ _ _ _ _
    rw [omegaSpec_right]
    unfold midSketch
    rw [hsh]
    rfl
  have hle : ∀ mu < 2, (Matrix.of fun (a : Fin (l8.rank.getD mu 0)) (b : Fin (r8.rank.reverse.getD mu 0)) =>
      omegaSpec [2, 3, 2] (Tensor.leaf (.sparse x8)).toNumpy.get (l8.leftMats env8) (r8.rightMats env8) mu a b).rank
      ≤ ((Tensor.leaf (.sparse x8)).toNumpy.unfolding (mu + 1)).rank := fun mu _ => by
    have := omega_rank_le_right (Tensor.leaf (.sparse x8)).toNumpy (l8.leftMats env8) (r8.rightMats env8) mu
      (l8.rank.getD mu 0) (r8.rank.reverse.getD mu 0)
    refine le_trans (le_of_eq ?_) (this.trans (Matrix.rank_mul_le_left _ _))
    rw [hsh]
    rfl
  obtain ⟨K, δ, d0, hK⟩ := C109_recovery env8 (.leaf (.sparse x8)) l8 r8 x8_valid trivial (by decide) x8_distinct x8_exact p1 p2
    (fun mu hmu => by rw [e]; exact le_antisymm (hle mu hmu) ((x8_rank _).trans (x8_omega_rank mu hmu)))
    (fun mu hmu => by
      have h1 := le_antisymm (x8_rank (mu + 1)) ((x8_omega_rank mu hmu).trans (hle mu hmu))
      rw [h1]
      revert mu
      exact two_cases (fun _ => rfl) (fun _ => rfl))
  refine ⟨K, δ, d0, fun ε u hε h1 hu hu1 => ?_⟩
  have hQ := badBoth_qr env8 hε
  have hE := badBoth_lstsq env8 hε
  obtain ⟨Y, hY⟩ := C97_success_supplied (badBoth ε env8) ε hQ hE (.leaf (.sparse x8)) l8 r8 none none none
    x8_valid x8_distinct x8_exact l8_acc r8_acc rfl rfl (two_cases (by decide) (by decide)) (two_cases (by decide) (by decide))
  have hF := C109_runs u hu _ _ _ _ _ _ _ _ hY
  exact ⟨Y, hF, hK _ _ ε u hε h1 hu hu1 hQ hE _ _ _ Y kw8_good hF⟩

end TTS.Props
