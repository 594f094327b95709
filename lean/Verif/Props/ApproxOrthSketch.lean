import Verif.Proofs.ApproxOrthSketch
import Verif.Props.ApproxStream

/-!
# C97: `orthogonal_sketch` with inexact QR factorisations and inexact least squares

`orthBound`, `orthBond`, `midSketch`, `fitErr` and `bondSolution` are in `Spec/ApproxOrthSketch.lean`, `QRApproxContract` in
`Spec/ApproxHmt.lean`, `LstsqApproxContract` in `Spec/ApproxStream.lean`, `rangeErrSq` in `Spec/OrthErr.lean`.
-/

namespace TTS.Props

open TTS Finset

theorem orth_inexact {env : Env ℝ} {ε : ℝ} (hε : 0 ≤ ε) (hQ : QRApproxContract env ε) (hE : LstsqApproxContract env ε)
    {A : ND ℝ} {L R : Mats ℝ} {lr rr : List ℕ} {Y : TT ℝ}
    (h : OrthRun env A.shape A.get R lr rr (some (sketchOf A.shape A.get L R lr rr).omega) Y.cores A.shape.length)
    (hd : 2 ≤ A.shape.length) (hl : lr.length = A.shape.length - 1) (hr : rr.length = A.shape.length - 1)
    (hR : ∀ b, R A.shape.length [] b = 1) (p1 : ∀ n ∈ A.shape, 0 < n) (p2 : ∀ r ∈ lr, 0 < r) :
    Y.Valid ∧ Y.shape = A.shape ∧ Y.rank = lr ∧ (∀ C ∈ Y.cores.dropLast, C.NearLeftOrthogonal (2 * ε + ε ^ 2)) ∧
    (∀ (B : ℕ → ℕ → List ℕ → ℝ) (H : ℕ → List ℕ → ℕ → ℝ), frobD A Y.toNumpy
      ≤ orthBound ε A L R lr rr B H fun mu => frobN (bondSolution env A L R lr rr Y mu)) ∧
    ∀ mu < A.shape.length - 1, ∀ G : ND ℝ, G.shape = [rr.getD mu 0, lr.getD mu 0] →
      (∀ a < lr.getD mu 0, ∀ c < lr.getD mu 0, ∑ b ∈ range (rr.getD mu 0), midSketch A L R (mu + 1) a b * G.get [b, c]
        = if a = c then 1 else 0) →
      ε * frobN G * midNorm A L R (mu + 1) (lr.getD mu 0) (rr.getD mu 0) ≤ 1 / 2 →
      frobN (bondSolution env A L R lr rr Y mu)
        ≤ 4 * (1 + ε) ^ (A.shape.length - 1) * frobN G * sketchedNorm A R (mu + 1) (rr.getD mu 0) := by
  have hom := (sketchOf_hasShape A.shape A.get L R lr rr).omega
  have hC := orthRun_shape h hl hr hom le_rfl
  obtain ⟨w1, w2, w3⟩ := cores_tt hC (by omega) h.len hl
  obtain ⟨k1, k2, k3⟩ := orth_sketch_approx hε hQ hE h hd hl hr hR p1 p2
  exact ⟨w1, w2, w3, hmt_near hε hC h.len k1, k2, k3⟩

/-- **C97.** If every QR factorisation and every least squares solve has relative error at most `ε`, then
`orthogonal_sketch` returns a tensor train of the tensor's shape with the ranks of the left DRM, all cores but the last are
left-orthogonal up to `2ε + ε²`, and the distance to the tensor is at most `orthBound`, for every choice of the
coefficients `B` and `H`. -/
theorem C97 (env : Env ℝ) (ε : ℝ) (hε : 0 ≤ ε) (hQ : QRApproxContract env ε) (hE : LstsqApproxContract env ε)
    (X : Tensor ℝ) (lrank rrank : RankArg) (kw : SketchKw ℝ) (Y : TT ℝ) (l r : DRM ℝ) (hkw : kw.Good) (hX : X.Valid)
    (hne : X.NonEmpty) (hd : 2 ≤ X.shape.length) (hdist : X.Distinct) (hx : ∀ t ∈ X.summands, t.RightExact)
    (p1 : ∀ n ∈ X.shape, 0 < n) (p2 : ∀ r ∈ l.rank, 0 < r)
    (h : orthogonalSketch env X lrank rrank kw = .ok (Y, l, r)) :
    Y.Valid ∧ Y.shape = X.shape ∧ Y.rank = l.rank ∧ (∀ C ∈ Y.cores.dropLast, C.NearLeftOrthogonal (2 * ε + ε ^ 2)) ∧
    (∀ (B : ℕ → ℕ → List ℕ → ℝ) (H : ℕ → List ℕ → ℕ → ℝ), frobD X.toNumpy Y.toNumpy
      ≤ orthBound ε X.toNumpy (l.leftMats env) (r.rightMats env) l.rank r.rank.reverse B H fun mu =>
        frobN (bondSolution env X.toNumpy (l.leftMats env) (r.rightMats env) l.rank r.rank.reverse Y mu)) ∧
    ∀ mu < X.shape.length - 1, ∀ G : ND ℝ, G.shape = [r.rank.reverse.getD mu 0, l.rank.getD mu 0] →
      (∀ a < l.rank.getD mu 0, ∀ c < l.rank.getD mu 0, ∑ b ∈ range (r.rank.reverse.getD mu 0),
        midSketch X.toNumpy (l.leftMats env) (r.rightMats env) (mu + 1) a b * G.get [b, c] = if a = c then 1 else 0) →
      ε * frobN G * midNorm X.toNumpy (l.leftMats env) (r.rightMats env) (mu + 1) (l.rank.getD mu 0)
        (r.rank.reverse.getD mu 0) ≤ 1 / 2 →
      frobN (bondSolution env X.toNumpy (l.leftMats env) (r.rightMats env) l.rank r.rank.reverse Y mu)
        ≤ 4 * (1 + ε) ^ (X.shape.length - 1) * frobN G
          * sketchedNorm X.toNumpy (r.rightMats env) (mu + 1) (r.rank.reverse.getD mu 0) := by
  obtain ⟨hO, -⟩ := orth_inv hkw hX hne hd h
  obtain ⟨n1, n2⟩ := hO.accL.ranks hO.accR
  have hsh := Tensor.toNumpy_shape hX
  have hr := hO.run' hX (streamsWith_exact hX hO.accR hO.dirR hdist hx)
  have hs := hO.accR.shape
  rw [← hsh] at hr n1 n2 hd p1 hs ⊢
  exact orth_inexact hε hQ hE hr hd n1 n2 (fun b => by rw [rightMats_last env (by rw [hs])]) p1 p2

/-- **C97, dense arrays** with any number of modes. -/
theorem C97_dense (env : Env ℝ) (ε : ℝ) (hε : 0 ≤ ε) (hQ : QRApproxContract env ε) (hE : LstsqApproxContract env ε)
    (X : ND ℝ) (lrank rrank : RankArg) (kw : SketchKw ℝ) (Y : TT ℝ) (l r : DRM ℝ) (hkw : kw.Good)
    (hd : 2 ≤ X.shape.length) (p1 : ∀ n ∈ X.shape, 0 < n) (p2 : ∀ r ∈ l.rank, 0 < r)
    (h : orthogonalSketch env (.leaf (.dense X)) lrank rrank kw = .ok (Y, l, r)) :
    Y.Valid ∧ Y.shape = X.shape ∧ Y.rank = l.rank ∧ (∀ C ∈ Y.cores.dropLast, C.NearLeftOrthogonal (2 * ε + ε ^ 2)) ∧
    (∀ (B : ℕ → ℕ → List ℕ → ℝ) (H : ℕ → List ℕ → ℕ → ℝ), frobD X Y.toNumpy
      ≤ orthBound ε X (l.leftMats env) (r.rightMatsDense env) l.rank r.rank.reverse B H fun mu =>
        frobN (bondSolution env X (l.leftMats env) (r.rightMatsDense env) l.rank r.rank.reverse Y mu)) ∧
    ∀ mu < X.shape.length - 1, ∀ G : ND ℝ, G.shape = [r.rank.reverse.getD mu 0, l.rank.getD mu 0] →
      (∀ a < l.rank.getD mu 0, ∀ c < l.rank.getD mu 0, ∑ b ∈ range (r.rank.reverse.getD mu 0),
        midSketch X (l.leftMats env) (r.rightMatsDense env) (mu + 1) a b * G.get [b, c] = if a = c then 1 else 0) →
      ε * frobN G * midNorm X (l.leftMats env) (r.rightMatsDense env) (mu + 1) (l.rank.getD mu 0)
        (r.rank.reverse.getD mu 0) ≤ 1 / 2 →
      frobN (bondSolution env X (l.leftMats env) (r.rightMatsDense env) l.rank r.rank.reverse Y mu)
        ≤ 4 * (1 + ε) ^ (X.shape.length - 1) * frobN G
          * sketchedNorm X (r.rightMatsDense env) (mu + 1) (r.rank.reverse.getD mu 0) := by
  obtain ⟨hO, -⟩ := orth_inv (X := .leaf (.dense X)) hkw trivial trivial hd h
  obtain ⟨n1, n2⟩ := hO.accL.ranks hO.accR
  have hr := hO.run' trivial (streamsWith_dense hO.accR hO.dirR)
  have hs : X.shape = r.shape := hO.accR.shape
  exact orth_inexact (A := X) hε hQ hE hr hd n1 n2 (fun b => by rw [rightMatsDense_last env (by rw [hs])]) p1 p2

/-- If every `Omega[mu]` has the rank of the unfolding, there are coefficients for which the two approximation errors in
`orthBound` vanish. -/
theorem C97_coeffs (A : ND ℝ) (L R : Mats ℝ) (lr rr : List ℕ)
    (hrank : ∀ mu < A.shape.length - 1,
      (Matrix.of fun (a : Fin (lr.getD mu 0)) (b : Fin (rr.getD mu 0)) => midSketch A L R (mu + 1) a b).rank
        = (A.unfolding (mu + 1)).rank) :
    ∃ (B : ℕ → ℕ → List ℕ → ℝ) (H : ℕ → List ℕ → ℕ → ℝ), ∀ mu < A.shape.length - 1,
      rangeErrSq A R (mu + 1) (rr.getD mu 0) (B mu) = 0 ∧
      fitErr A L R (mu + 1) (lr.getD mu 0) (rr.getD mu 0) (H mu) = 0 := by
  have key : ∀ mu, ∃ (B : ℕ → List ℕ → ℝ) (H : List ℕ → ℕ → ℝ), mu < A.shape.length - 1 →
      rangeErrSq A R (mu + 1) (rr.getD mu 0) B = 0 ∧ fitErr A L R (mu + 1) (lr.getD mu 0) (rr.getD mu 0) H = 0 := by
    intro mu
    by_cases hmu : mu < A.shape.length - 1
    · obtain ⟨⟨W, hW⟩, V, hV⟩ := spans_of_rank A L R mu (lr.getD mu 0) (rr.getD mu 0) (by
        rw [← hrank mu hmu]
        congr 1
        ext a b
        exact omegaSpec_right _ _ _ _ _ _ _)
      refine ⟨V, W, fun _ => ⟨sumIdx_eq_zero fun i hi => ?_, ?_⟩⟩
      · have e : A.get i = ∑ b ∈ range (rr.getD mu 0), rightSketch A R (mu + 1) (i.take (mu + 1)) b
            * V b (i.drop (mu + 1)) := by
          have h1 := hV (i.take (mu + 1)) (i.drop (mu + 1)) (hi.take _) (hi.drop _)
          rw [List.take_append_drop] at h1
          exact h1
        rw [e, sub_self]; ring
      · unfold fitErr
        rw [Real.sqrt_eq_zero']
        refine le_of_eq (sumIdx_eq_zero fun p hp => sum_eq_zero fun b _ => ?_)
        have e : rightSketch A R (mu + 1) p b = ∑ c ∈ range (lr.getD mu 0), W p c * midSketch A L R (mu + 1) c b := by
          unfold rightSketch
          have : ∀ q, InR (A.shape.drop (mu + 1)) q → A.get (p ++ q) * R (mu + 1) q b
              = ∑ c ∈ range (lr.getD mu 0), W p c * (pcL A.shape A.get L (mu + 1) c q * R (mu + 1) q b) := by
            intro q hq
            rw [hW p q hp hq, sum_mul]
            exact sum_congr rfl fun c _ => mul_assoc _ _ _
          rw [sumIdx_congr this, sumIdx_sum]
          refine sum_congr rfl fun c _ => ?_
          rw [← mul_sumIdx]
          congr 1
          have := (omegaSpec_left A.shape A.get L R mu c b).symm.trans (omegaSpec_right A.shape A.get L R mu c b)
          exact this
        rw [e, sub_self]; ring
    · exact ⟨fun _ _ => 0, fun _ _ => 0, fun h => absurd h hmu⟩
  choose B H hBH using key
  exact ⟨B, H, hBH⟩

/-- With right inverses of the matrices `Omega[mu]` the bound of `C97` does not depend on the run. -/
theorem orthBound_mono {ε : ℝ} (hε : 0 ≤ ε) (A : ND ℝ) (L R : Mats ℝ) (lr rr : List ℕ) (B : ℕ → ℕ → List ℕ → ℝ)
    (H : ℕ → List ℕ → ℕ → ℝ) {c c' : ℕ → ℝ} (h0 : ∀ mu < A.shape.length - 1, 0 ≤ c mu)
    (h : ∀ mu < A.shape.length - 1, c mu ≤ c' mu) :
    orthBound ε A L R lr rr B H c ≤ orthBound ε A L R lr rr B H c' := by
  unfold orthBound
  refine add_le_add_left (add_le_add_right (Real.sqrt_le_sqrt (sum_le_sum fun mu hmu => ?_)) _) _
  have hmu : mu < A.shape.length - 1 := by simpa using hmu
  have s0 : 0 ≤ sketchedNorm A R (mu + 1) (rr.getD mu 0) := Real.sqrt_nonneg _
  have f0 : 0 ≤ fitErr A L R (mu + 1) (lr.getD mu 0) (rr.getD mu 0) (H mu) := Real.sqrt_nonneg _
  have m0 : 0 ≤ midNorm A L R (mu + 1) (lr.getD mu 0) (rr.getD mu 0) := Real.sqrt_nonneg _
  have r0 : 0 ≤ rowCoeffNorm A.shape (mu + 1) (lr.getD mu 0) (H mu) := Real.sqrt_nonneg _
  have b0 : 0 ≤ coeffNorm A.shape (mu + 1) (rr.getD mu 0) (B mu) := Real.sqrt_nonneg _
  have hc := h0 mu hmu
  unfold orthBond
  refine pow_le_pow_left₀ (by positivity) (mul_le_mul_of_nonneg_right ?_ b0) 2
  have := mul_le_mul_of_nonneg_left (h mu hmu) (show 0 ≤ 2 * ε * midNorm A L R (mu + 1) (lr.getD mu 0) (rr.getD mu 0) by
    positivity)
  linarith

/-- **C97, a bound that does not depend on the run.** If every `Omega[mu]` has a right inverse `G mu` with
`ε ‖G‖ ‖Omega[mu]‖ ≤ 1/2`, the norms of the computed solutions can be replaced by `4 (1+ε)^N ‖G‖ ‖X_mu R_mu‖`. -/
theorem C97_apriori (env : Env ℝ) (ε : ℝ) (hε : 0 ≤ ε) (hQ : QRApproxContract env ε) (hE : LstsqApproxContract env ε)
    (X : Tensor ℝ) (lrank rrank : RankArg) (kw : SketchKw ℝ) (Y : TT ℝ) (l r : DRM ℝ) (hkw : kw.Good) (hX : X.Valid)
    (hne : X.NonEmpty) (hd : 2 ≤ X.shape.length) (hdist : X.Distinct) (hx : ∀ t ∈ X.summands, t.RightExact)
    (p1 : ∀ n ∈ X.shape, 0 < n) (p2 : ∀ r ∈ l.rank, 0 < r)
    (h : orthogonalSketch env X lrank rrank kw = .ok (Y, l, r)) (G : ℕ → ND ℝ)
    (hG : ∀ mu < X.shape.length - 1, (G mu).shape = [r.rank.reverse.getD mu 0, l.rank.getD mu 0])
    (hinv : ∀ mu < X.shape.length - 1, ∀ a < l.rank.getD mu 0, ∀ c < l.rank.getD mu 0,
      ∑ b ∈ range (r.rank.reverse.getD mu 0), midSketch X.toNumpy (l.leftMats env) (r.rightMats env) (mu + 1) a b
        * (G mu).get [b, c] = if a = c then 1 else 0)
    (hsmall : ∀ mu < X.shape.length - 1, ε * frobN (G mu) * midNorm X.toNumpy (l.leftMats env) (r.rightMats env) (mu + 1)
      (l.rank.getD mu 0) (r.rank.reverse.getD mu 0) ≤ 1 / 2)
    (B : ℕ → ℕ → List ℕ → ℝ) (H : ℕ → List ℕ → ℕ → ℝ) :
    frobD X.toNumpy Y.toNumpy ≤ orthBound ε X.toNumpy (l.leftMats env) (r.rightMats env) l.rank r.rank.reverse B H
      fun mu => 4 * (1 + ε) ^ (X.shape.length - 1) * frobN (G mu)
        * sketchedNorm X.toNumpy (r.rightMats env) (mu + 1) (r.rank.reverse.getD mu 0) := by
  obtain ⟨-, -, -, -, k1, k2⟩ := C97 env ε hε hQ hE X lrank rrank kw Y l r hkw hX hne hd hdist hx p1 p2 h
  have hsh := Tensor.toNumpy_shape hX
  refine (k1 B H).trans (orthBound_mono hε _ _ _ _ _ B H (fun mu _ => frobN_nonneg _) fun mu hmu => ?_)
  rw [hsh] at hmu
  exact k2 mu hmu (G mu) (hG mu hmu) (hinv mu hmu) (hsmall mu hmu)

/-- **C97, dense arrays, a bound that does not depend on the run.** -/
theorem C97_apriori_dense (env : Env ℝ) (ε : ℝ) (hε : 0 ≤ ε) (hQ : QRApproxContract env ε)
    (hE : LstsqApproxContract env ε) (X : ND ℝ) (lrank rrank : RankArg) (kw : SketchKw ℝ) (Y : TT ℝ) (l r : DRM ℝ)
    (hkw : kw.Good) (hd : 2 ≤ X.shape.length) (p1 : ∀ n ∈ X.shape, 0 < n) (p2 : ∀ r ∈ l.rank, 0 < r)
    (h : orthogonalSketch env (.leaf (.dense X)) lrank rrank kw = .ok (Y, l, r)) (G : ℕ → ND ℝ)
    (hG : ∀ mu < X.shape.length - 1, (G mu).shape = [r.rank.reverse.getD mu 0, l.rank.getD mu 0])
    (hinv : ∀ mu < X.shape.length - 1, ∀ a < l.rank.getD mu 0, ∀ c < l.rank.getD mu 0,
      ∑ b ∈ range (r.rank.reverse.getD mu 0), midSketch X (l.leftMats env) (r.rightMatsDense env) (mu + 1) a b
        * (G mu).get [b, c] = if a = c then 1 else 0)
    (hsmall : ∀ mu < X.shape.length - 1, ε * frobN (G mu) * midNorm X (l.leftMats env) (r.rightMatsDense env) (mu + 1)
      (l.rank.getD mu 0) (r.rank.reverse.getD mu 0) ≤ 1 / 2)
    (B : ℕ → ℕ → List ℕ → ℝ) (H : ℕ → List ℕ → ℕ → ℝ) :
    frobD X Y.toNumpy ≤ orthBound ε X (l.leftMats env) (r.rightMatsDense env) l.rank r.rank.reverse B H
      fun mu => 4 * (1 + ε) ^ (X.shape.length - 1) * frobN (G mu)
        * sketchedNorm X (r.rightMatsDense env) (mu + 1) (r.rank.reverse.getD mu 0) := by
  obtain ⟨-, -, -, -, k1, k2⟩ := C97_dense env ε hε hQ hE X lrank rrank kw Y l r hkw hd p1 p2 h
  exact (k1 B H).trans (orthBound_mono hε _ _ _ _ _ B H (fun mu _ => frobN_nonneg _) fun mu hmu =>
    k2 mu hmu (G mu) (hG mu hmu) (hinv mu hmu) (hsmall mu hmu))

theorem orthBound_linear {A : ND ℝ} {L R : Mats ℝ} {lr rr : List ℕ} {B : ℕ → ℕ → List ℕ → ℝ} {H : ℕ → List ℕ → ℕ → ℝ}
    (h0 : ∀ mu < A.shape.length - 1, rangeErrSq A R (mu + 1) (rr.getD mu 0) (B mu) = 0 ∧
      fitErr A L R (mu + 1) (lr.getD mu 0) (rr.getD mu 0) (H mu) = 0) (g : ℕ → ℝ)
    (hg : ∀ mu < A.shape.length - 1, 0 ≤ g mu) :
    ∃ K : ℝ, ∀ ε : ℝ, 0 ≤ ε → ε ≤ 1 → orthBound ε A L R lr rr B H (fun mu => 4 * (1 + ε) ^ (A.shape.length - 1) * g mu
        * sketchedNorm A R (mu + 1) (rr.getD mu 0)) ≤ K * ε := by
  obtain ⟨N, hN⟩ : ∃ N, N = A.shape.length - 1 := ⟨_, rfl⟩
  obtain ⟨k, hk⟩ : ∃ k : ℕ → ℝ, k = fun mu => (2 : ℝ) ^ N * (((N : ℝ) + 1) * sketchedNorm A R (mu + 1) (rr.getD mu 0)
      + midNorm A L R (mu + 1) (lr.getD mu 0) (rr.getD mu 0) * rowCoeffNorm A.shape (mu + 1) (lr.getD mu 0) (H mu)
      + 8 * midNorm A L R (mu + 1) (lr.getD mu 0) (rr.getD mu 0) * g mu * sketchedNorm A R (mu + 1) (rr.getD mu 0))
      * coeffNorm A.shape (mu + 1) (rr.getD mu 0) (B mu) := ⟨_, rfl⟩
  refine ⟨√ (∑ mu ∈ range N, k mu ^ 2) + 2 * N * 2 ^ (2 * N) * frobN A, fun ε hε h1 => ?_⟩
  unfold orthBound
  rw [← hN] at h0 hg ⊢
  have pw : ∀ n : ℕ, (1 + ε) ^ n ≤ 2 ^ n := fun n => pow_le_pow_left₀ (by linarith) (by linarith) n
  have e1 : ∑ mu ∈ range N, rangeErrSq A R (mu + 1) (rr.getD mu 0) (B mu) = 0 :=
    sum_eq_zero fun mu hmu => (h0 mu (by simpa using hmu)).1
  rw [e1, Real.sqrt_zero, zero_add]
  have e2 : √ (∑ mu ∈ range N, orthBond ε A L R N (mu + 1) (lr.getD mu 0) (rr.getD mu 0) (B mu) (H mu)
        (4 * (1 + ε) ^ N * g mu * sketchedNorm A R (mu + 1) (rr.getD mu 0)) ^ 2)
      ≤ √ (∑ mu ∈ range N, k mu ^ 2) * ε := by
    have : √ (∑ mu ∈ range N, k mu ^ 2) * ε = √ (∑ mu ∈ range N, (k mu * ε) ^ 2) := by
      simp only [mul_pow]
      rw [← sum_mul, Real.sqrt_mul' _ (sq_nonneg ε), Real.sqrt_sq hε]
    rw [this]
    refine Real.sqrt_le_sqrt (sum_le_sum fun mu hmu => ?_)
    have hmu : mu < N := by simpa using hmu
    have s0 : 0 ≤ sketchedNorm A R (mu + 1) (rr.getD mu 0) := Real.sqrt_nonneg _
    have m0 : 0 ≤ midNorm A L R (mu + 1) (lr.getD mu 0) (rr.getD mu 0) := Real.sqrt_nonneg _
    have r0 : 0 ≤ rowCoeffNorm A.shape (mu + 1) (lr.getD mu 0) (H mu) := Real.sqrt_nonneg _
    have b0 : 0 ≤ coeffNorm A.shape (mu + 1) (rr.getD mu 0) (B mu) := Real.sqrt_nonneg _
    have g0 := hg mu hmu
    unfold orthBond
    rw [(h0 mu hmu).2, hk]
    beta_reduce
    generalize sketchedNorm A R (mu + 1) (rr.getD mu 0) = σ at *
    generalize midNorm A L R (mu + 1) (lr.getD mu 0) (rr.getD mu 0) = ω at *
    generalize rowCoeffNorm A.shape (mu + 1) (lr.getD mu 0) (H mu) = η at *
    generalize coeffNorm A.shape (mu + 1) (rr.getD mu 0) (B mu) = β at *
    refine pow_le_pow_left₀ (by positivity) ?_ 2
    have e3 : ((1 + ε) ^ N * (((N : ℝ) + 1) * ε * σ + 0 + ε * ω * η) + 2 * ε * ω * (4 * (1 + ε) ^ N * g mu * σ)) * β
        = (1 + ε) ^ N * ((((N : ℝ) + 1) * σ + ω * η + 8 * ω * g mu * σ) * β * ε) := by ring
    have e4 : 2 ^ N * (((N : ℝ) + 1) * σ + ω * η + 8 * ω * g mu * σ) * β * ε
        = 2 ^ N * ((((N : ℝ) + 1) * σ + ω * η + 8 * ω * g mu * σ) * β * ε) := by ring
    rw [e3, e4]
    exact mul_le_mul_of_nonneg_right (pw N) (by positivity)
  have e5 : 2 * (N : ℝ) * ε * (1 + ε) ^ (2 * N) * frobN A ≤ 2 * N * 2 ^ (2 * N) * frobN A * ε := by
    have f0 := frobN_nonneg A
    have := mul_le_mul_of_nonneg_left (pw (2 * N)) (show 0 ≤ 2 * (N : ℝ) * ε * frobN A by positivity)
    linarith
  linarith

theorem small_eps (n : ℕ) (a : ℕ → ℝ) : ∃ δ : ℝ, 0 < δ ∧ δ ≤ 1 ∧ ∀ ε, 0 ≤ ε → ε ≤ δ → ∀ mu < n, ε * a mu ≤ 1 / 2 := by
  obtain ⟨S, hS⟩ : ∃ S, S = ∑ mu ∈ range n, |a mu| := ⟨_, rfl⟩
  have h0 : 0 ≤ S := by rw [hS]; exact sum_nonneg fun _ _ => abs_nonneg _
  refine ⟨1 / (2 * (S + 1)), by positivity, by rw [div_le_one (by positivity)]; linarith, fun ε he h1 mu hmu => ?_⟩
  have h2 : a mu ≤ S + 1 := by
    have : |a mu| ≤ S := by rw [hS]; exact single_le_sum (f := fun mu => |a mu|) (fun _ _ => abs_nonneg _) (by simpa using hmu)
    have := le_abs_self (a mu)
    linarith
  have h3 := mul_le_mul_of_nonneg_left h2 he
  have h4 := mul_le_mul_of_nonneg_right h1 (show 0 ≤ S + 1 by linarith)
  have h5 : 1 / (2 * (S + 1)) * (S + 1) = 1 / 2 := by field_simp
  linarith

theorem exists_right_inverse {l r : ℕ} (W : Matrix (Fin l) (Fin r) ℝ) (h : W.rank = l) :
    ∃ V : Matrix (Fin r) (Fin l) ℝ, W * V = 1 := by
  obtain ⟨V, hV⟩ := exists_right_factor (1 : Matrix (Fin l) (Fin l) ℝ) W (by
    rw [Matrix.one_mul, h, Matrix.rank_one, Fintype.card_fin])
  exact ⟨V, by rwa [Matrix.one_mul] at hV⟩

theorem recovery_core {A : ND ℝ} {L R : Mats ℝ} {lr rr : List ℕ}
    (hrank : ∀ mu < A.shape.length - 1,
      (Matrix.of fun (a : Fin (lr.getD mu 0)) (b : Fin (rr.getD mu 0)) => midSketch A L R (mu + 1) a b).rank
        = (A.unfolding (mu + 1)).rank)
    (hfull : ∀ mu < A.shape.length - 1, (A.unfolding (mu + 1)).rank = lr.getD mu 0) :
    ∃ (K δ : ℝ) (B : ℕ → ℕ → List ℕ → ℝ) (H : ℕ → List ℕ → ℕ → ℝ) (G : ℕ → ND ℝ), 0 < δ ∧ ∀ ε : ℝ, 0 ≤ ε → ε ≤ δ →
      (∀ mu < A.shape.length - 1, (G mu).shape = [rr.getD mu 0, lr.getD mu 0]) ∧
      (∀ mu < A.shape.length - 1, ∀ a < lr.getD mu 0, ∀ c < lr.getD mu 0,
        ∑ b ∈ range (rr.getD mu 0), midSketch A L R (mu + 1) a b * (G mu).get [b, c] = if a = c then 1 else 0) ∧
      (∀ mu < A.shape.length - 1, ε * frobN (G mu) * midNorm A L R (mu + 1) (lr.getD mu 0) (rr.getD mu 0) ≤ 1 / 2) ∧
      orthBound ε A L R lr rr B H (fun mu => 4 * (1 + ε) ^ (A.shape.length - 1) * frobN (G mu)
        * sketchedNorm A R (mu + 1) (rr.getD mu 0)) ≤ K * ε := by
  obtain ⟨B, H, hBH⟩ := C97_coeffs A L R lr rr hrank
  have hGex : ∀ mu, ∃ G : ND ℝ, mu < A.shape.length - 1 → G.shape = [rr.getD mu 0, lr.getD mu 0] ∧
      ∀ a < lr.getD mu 0, ∀ c < lr.getD mu 0, ∑ b ∈ range (rr.getD mu 0),
        midSketch A L R (mu + 1) a b * G.get [b, c] = if a = c then 1 else 0 := by
    intro mu
    by_cases hmu : mu < A.shape.length - 1
    · obtain ⟨V, hV⟩ := exists_right_inverse (Matrix.of fun (a : Fin (lr.getD mu 0))
        (b : Fin (rr.getD mu 0)) => midSketch A L R (mu + 1) a b)
        (by rw [hrank mu hmu, hfull mu hmu])
      refine ⟨ND.ofFn [rr.getD mu 0, lr.getD mu 0] fun i =>
        if hi : i.getD 0 0 < rr.getD mu 0 ∧ i.getD 1 0 < lr.getD mu 0 then V ⟨_, hi.1⟩ ⟨_, hi.2⟩ else 0,
        fun _ => ⟨rfl, fun a ha c hc => ?_⟩⟩
      have := congrFun (congrFun hV ⟨a, ha⟩) ⟨c, hc⟩
      rw [Matrix.mul_apply, Matrix.one_apply] at this
      rw [Finset.sum_range]
      simp only [Fin.mk.injEq] at this
      rw [← this]
      refine sum_congr rfl fun b _ => ?_
      congr 1
      rw [ND.ofFn_get (show InR [_, _] [(b : ℕ), c] from ⟨b.2, hc, trivial⟩)]
      simp only [List.getD_cons_zero, List.getD_cons_succ]
      rw [dif_pos ⟨b.2, hc⟩]
    · exact ⟨ND.zeros [], fun h => absurd h hmu⟩
  choose G hG using hGex
  obtain ⟨K, hK⟩ := orthBound_linear hBH (fun mu => frobN (G mu)) fun mu _ => frobN_nonneg _
  obtain ⟨δ, d0, d1, hδ⟩ := small_eps (A.shape.length - 1) fun mu => frobN (G mu) * midNorm A L R (mu + 1) (lr.getD mu 0)
    (rr.getD mu 0)
  exact ⟨K, δ, B, H, G, d0, fun ε hε h1 => ⟨fun mu hmu => (hG mu hmu).1, fun mu hmu => (hG mu hmu).2,
    fun mu hmu => by rw [mul_assoc]; exact hδ ε hε h1 mu hmu, hK ε hε (h1.trans d1)⟩⟩

/-- **C97, recovery up to rounding.** If every `Omega[mu]` has full row rank and the rank of the unfolding, then there is a
constant that depends only on the tensor and the DRMs such that, for all sufficiently accurate routines, the error of
`orthogonal_sketch` is at most that constant times the error of the routines. -/
theorem C97_recovery (env : Env ℝ) (X : Tensor ℝ) (l r : DRM ℝ) (hX : X.Valid)
    (hne : X.NonEmpty) (hd : 2 ≤ X.shape.length) (hdist : X.Distinct) (hx : ∀ t ∈ X.summands, t.RightExact)
    (p1 : ∀ n ∈ X.shape, 0 < n) (p2 : ∀ r ∈ l.rank, 0 < r)
    (hrank : ∀ mu < X.shape.length - 1, (Matrix.of fun (a : Fin (l.rank.getD mu 0)) (b : Fin (r.rank.reverse.getD mu 0)) =>
      midSketch X.toNumpy (l.leftMats env) (r.rightMats env) (mu + 1) a b).rank = (X.toNumpy.unfolding (mu + 1)).rank)
    (hfull : ∀ mu < X.shape.length - 1, (X.toNumpy.unfolding (mu + 1)).rank = l.rank.getD mu 0) :
    ∃ K δ : ℝ, 0 < δ ∧ ∀ (qr : ND ℝ → ND ℝ × ND ℝ) (lsq : ND ℝ → ND ℝ → ND ℝ) (ε : ℝ), 0 ≤ ε → ε ≤ δ →
      QRApproxContract { env with qr := qr, lstsq := lsq } ε → LstsqApproxContract { env with qr := qr, lstsq := lsq } ε →
      ∀ (lrank rrank : RankArg) (kw : SketchKw ℝ) (Y : TT ℝ), kw.Good →
        orthogonalSketch { env with qr := qr, lstsq := lsq } X lrank rrank kw = .ok (Y, l, r) →
        frobD X.toNumpy Y.toNumpy ≤ K * ε := by
  have hsh := Tensor.toNumpy_shape hX
  have hln : X.toNumpy.shape.length = X.shape.length := by rw [hsh]
  obtain ⟨K, δ, B, H, G, d0, hK⟩ := recovery_core (A := X.toNumpy) (L := l.leftMats env) (R := r.rightMats env)
    (lr := l.rank) (rr := r.rank.reverse) (fun mu hmu => hrank mu (by rw [← hln]; exact hmu))
    (fun mu hmu => hfull mu (by rw [← hln]; exact hmu))
  refine ⟨K, δ, d0, fun qr lsq ε hε h1 hQ hE lrank rrank kw Y hkw hY => ?_⟩
  obtain ⟨g1, g2, g3, g4⟩ := hK ε hε h1
  rw [hln] at g1 g2 g3 g4
  exact (C97_apriori { env with qr := qr, lstsq := lsq } ε hε hQ hE X lrank rrank kw Y l r hkw hX hne hd hdist hx p1 p2 hY G
    g1 g2 g3 B H).trans g4

/-- **C97, recovery up to rounding, dense arrays** with any number of modes. -/
theorem C97_recovery_dense (env : Env ℝ) (X : ND ℝ) (l r : DRM ℝ) (hd : 2 ≤ X.shape.length)
    (p1 : ∀ n ∈ X.shape, 0 < n) (p2 : ∀ r ∈ l.rank, 0 < r)
    (hrank : ∀ mu < X.shape.length - 1, (Matrix.of fun (a : Fin (l.rank.getD mu 0)) (b : Fin (r.rank.reverse.getD mu 0)) =>
      midSketch X (l.leftMats env) (r.rightMatsDense env) (mu + 1) a b).rank = (X.unfolding (mu + 1)).rank)
    (hfull : ∀ mu < X.shape.length - 1, (X.unfolding (mu + 1)).rank = l.rank.getD mu 0) :
    ∃ K δ : ℝ, 0 < δ ∧ ∀ (qr : ND ℝ → ND ℝ × ND ℝ) (lsq : ND ℝ → ND ℝ → ND ℝ) (ε : ℝ), 0 ≤ ε → ε ≤ δ →
      QRApproxContract { env with qr := qr, lstsq := lsq } ε → LstsqApproxContract { env with qr := qr, lstsq := lsq } ε →
      ∀ (lrank rrank : RankArg) (kw : SketchKw ℝ) (Y : TT ℝ), kw.Good →
        orthogonalSketch { env with qr := qr, lstsq := lsq } (.leaf (.dense X)) lrank rrank kw = .ok (Y, l, r) →
        frobD X Y.toNumpy ≤ K * ε := by
  obtain ⟨K, δ, B, H, G, d0, hK⟩ := recovery_core hrank hfull
  refine ⟨K, δ, d0, fun qr lsq ε hε h1 hQ hE lrank rrank kw Y hkw hY => ?_⟩
  obtain ⟨g1, g2, g3, g4⟩ := hK ε hε h1
  exact (C97_apriori_dense { env with qr := qr, lstsq := lsq } ε hε hQ hE X lrank rrank kw Y l r hkw hd p1 p2 hY G
    g1 g2 g3 B H).trans g4

/-- **C97, success.** `orthogonal_sketch` with fresh DRMs returns, whatever the error of the routines. -/
theorem C97_success (env : Env ℝ) (ε : ℝ) (hQ : QRApproxContract env ε) (hE : LstsqApproxContract env ε) (X : Tensor ℝ)
    (lrank rrank : RankArg) (seed : Option ℕ) (lt rt : Option DRMKind) (hX : X.Valid) (hd : 2 ≤ X.shape.length)
    (hdist : X.Distinct) (hx : ∀ t ∈ X.summands, t.RightExact)
    (hl : (ranksOf lrank X.shape.length).length = X.shape.length - 1)
    (hr : (ranksOf rrank X.shape.length).length = X.shape.length - 1)
    (ho : ∀ k < X.shape.length - 1, (ranksOf lrank X.shape.length).getD k 0 < (ranksOf rrank X.shape.length).getD k 0)
    (p1 : ∀ n ∈ X.shape, 0 < n) (p2 : ∀ r ∈ ranksOf lrank X.shape.length, 0 < r)
    (hseed : seed.getD 0 < 2 ^ 32)
    (hsup : ∀ t ∈ X.summands, ∀ D : DRMData ℝ, (D.kind = lt.getD (rt.getD .tensorTrain) ∨
      D.kind = rt.getD (lt.getD .tensorTrain)) → D.supports t = true) :
    ∃ o, orthogonalSketch env X lrank rrank { seed := seed, leftType := lt, rightType := rt } = .ok o :=
  orth_fresh hE.lstsqShape hQ.qrShape lrank rrank seed lt rt hX hd hl hr ho p1 p2 hseed hsup
    fun _ hr ht => ⟨_, streamsWith_exact hX hr ht hdist hx⟩

/-- **C97, success with supplied DRMs** that fit the tensor. -/
theorem C97_success_supplied (env : Env ℝ) (ε : ℝ) (hQ : QRApproxContract env ε) (hE : LstsqApproxContract env ε)
    (X : Tensor ℝ) (l r : DRM ℝ) (seed : Option ℕ) (lt rt : Option DRMKind) (hX : X.Valid) (hdist : X.Distinct)
    (hx : ∀ t ∈ X.summands, t.RightExact) (hl : l.AcceptsT X) (hr : r.AcceptsT X) (hlt : l.transpose = false)
    (hrt : r.transpose = true) (ho : ∀ k < X.shape.length - 1, l.rank.getD k 0 < r.rank.reverse.getD k 0)
    (hfit : ∀ mu < X.shape.length - 1, l.rank.getD mu 0 ≤ (1 :: l.rank).getD mu 0 * X.shape.getD mu 0) :
    ∃ Y, orthogonalSketch env X (.seq l.rank) (.seq r.rank.reverse) ⟨seed, lt, rt, some l, some r⟩ = .ok (Y, l, r) := by
  obtain ⟨n1, n2⟩ := hl.ranks hr
  have hd : 2 ≤ X.shape.length := by rw [hl.shape]; exact hl.wf.two
  obtain ⟨C, hC⟩ := orth_general_ok hE.lstsqShape hQ.qrShape hX hl hr hlt (streamsWith_exact hX hr hrt hdist hx) hfit
  unfold orthogonalSketch
  have e : ranksLess (.seq l.rank) (.seq r.rank.reverse) = .ok true := by
    rw [ranksLess_eq (a := .seq l.rank) (b := .seq r.rank.reverse) hd n1 n2]
    congr 1
    exact decide_eq_true ho
  rw [e]
  simp only [Except.andThen, leftDRM, rightDRM, if_true, hC]
  exact ⟨_, rfl⟩

/-- With exact routines (`ε = 0`) only the two approximation errors remain in the bound. -/
theorem orthBound_zero (A : ND ℝ) (L R : Mats ℝ) (lr rr : List ℕ) (B : ℕ → ℕ → List ℕ → ℝ) (H : ℕ → List ℕ → ℕ → ℝ)
    (c : ℕ → ℝ) : orthBound 0 A L R lr rr B H c
      = √ (∑ mu ∈ range (A.shape.length - 1), rangeErrSq A R (mu + 1) (rr.getD mu 0) (B mu))
        + √ (∑ mu ∈ range (A.shape.length - 1), (fitErr A L R (mu + 1) (lr.getD mu 0) (rr.getD mu 0) (H mu)
          * coeffNorm A.shape (mu + 1) (rr.getD mu 0) (B mu)) ^ 2) := by
  unfold orthBound orthBond
  simp

/-! ### Examples -/

noncomputable def badBoth (ε : ℝ) (env : Env ℝ) : Env ℝ := { env with qr := (badQr ε).qr, lstsq := badLstsq ε }

theorem badBoth_qr {ε : ℝ} (env : Env ℝ) (hε : 0 ≤ ε) : QRApproxContract (badBoth ε env) ε := badQr_approx hε

theorem badBoth_lstsq {ε : ℝ} (env : Env ℝ) (hε : 0 ≤ ε) : LstsqApproxContract (badBoth ε env) ε := badLstsq_approx hε rfl

theorem kw8_good : ({ left := some l8, right := some r8 } : SketchKw ℝ).Good :=
  ⟨fun D h => by cases h; exact ⟨l8_wf.1, l8_wf.2, rfl⟩, fun D h => by cases h; exact ⟨r8_wf.1, r8_wf.2, rfl⟩⟩

/-- `C97_success_supplied` and `C97` apply. -/
example (ε : ℝ) (hε : 0 ≤ ε) : ∃ Y, orthogonalSketch (badBoth ε env61) (.leaf (.sparse x61)) (.seq [1, 1]) (.seq [2, 2])
      { left := some l8, right := some r8 } = .ok (Y, l8, r8) ∧
    (∀ C ∈ Y.cores.dropLast, C.NearLeftOrthogonal (2 * ε + ε ^ 2)) ∧
    ∀ (B : ℕ → ℕ → List ℕ → ℝ) (H : ℕ → List ℕ → ℕ → ℝ), frobD x61.toNumpy Y.toNumpy
      ≤ orthBound ε x61.toNumpy (l8.leftMats env61) (r8.rightMats env61) [1, 1] [2, 2] B H fun mu =>
        frobN (bondSolution (badBoth ε env61) x61.toNumpy (l8.leftMats env61) (r8.rightMats env61) [1, 1] [2, 2] Y mu) := by
  have hQ := badBoth_qr env61 hε
  have hE := badBoth_lstsq env61 hε
  obtain ⟨Y, hY⟩ := C97_success_supplied (badBoth ε env61) ε hQ hE (.leaf (.sparse x61)) l8 r8 none none none
    x61_valid x61_distinct x61_exact (x61_acc l8_wf rfl rfl) (x61_acc r8_wf rfl rfl) rfl rfl
    (two_cases (by decide) (by decide)) (two_cases (by decide) (by decide))
  obtain ⟨-, -, -, h4, h5, -⟩ := C97 (badBoth ε env61) ε hε hQ hE (.leaf (.sparse x61)) _ _ _ Y l8 r8 kw8_good x61_valid
    trivial (by decide) x61_distinct x61_exact (by show ∀ n ∈ [2, 3, 2], 0 < n; decide)
    (by show ∀ n ∈ [1, 1], 0 < n; decide) hY
  exact ⟨Y, hY, h4, h5⟩

/-- `C97_recovery` applies: with routines of error at most `ε` the tensor `x8` is recovered up to a constant times `ε`. -/
example : ∃ K δ : ℝ, 0 < δ ∧ ∀ ε : ℝ, 0 ≤ ε → ε ≤ δ → ∃ Y, orthogonalSketch (badBoth ε env8) (.leaf (.sparse x8))
    (.seq [1, 1]) (.seq [2, 2]) { left := some l8, right := some r8 } = .ok (Y, l8, r8) ∧
      frobD x8.toNumpy Y.toNumpy ≤ K * ε := by
  have p1 : ∀ n ∈ (Tensor.leaf (.sparse x8)).shape, 0 < n := by show ∀ n ∈ [2, 3, 2], 0 < n; decide
  have p2 : ∀ r ∈ l8.rank, 0 < r := by show ∀ n ∈ [1, 1], 0 < n; decide
  have hsh := Tensor.toNumpy_shape x8_valid
  have e : ∀ mu, (Matrix.of fun (a : Fin (l8.rank.getD mu 0)) (b : Fin (r8.rank.reverse.getD mu 0)) =>
      midSketch (Tensor.leaf (.sparse x8)).toNumpy (l8.leftMats env8) (r8.rightMats env8) (mu + 1) a b)
      = Matrix.of fun (a : Fin (l8.rank.getD mu 0)) (b : Fin (r8.rank.reverse.getD mu 0)) =>
      omegaSpec [2, 3, 2] (Tensor.leaf (.sparse x8)).toNumpy.get (l8.leftMats env8) (r8.rightMats env8) mu a b := by
    intro mu
    ext a b
    show midSketch _ _ _ _ _ _ = omegaSpec _ _ _ _ _ _ _
    rw [omegaSpec_right]
    unfold midSketch
    rw [hsh]
    rfl
  have hle : ∀ mu < 2, (Matrix.of fun (a : Fin (l8.rank.getD mu 0)) (b : Fin (r8.rank.reverse.getD mu 0)) =>
      omegaSpec [2, 3, 2] (Tensor.leaf (.sparse x8)).toNumpy.get (l8.leftMats env8) (r8.rightMats env8) mu a b).rank
      ≤ ((Tensor.leaf (.sparse x8)).toNumpy.unfolding (mu + 1)).rank := fun mu _ => by
    have := omega_rank_le_right (Tensor.leaf (.sparse x8)).toNumpy (l8.leftMats env8) (r8.rightMats env8) mu
      (l8.rank.getD mu 0) (r8.rank.reverse.getD mu 0)
    refine le_trans (le_of_eq ?_) (this.trans (Matrix.rank_mul_le_left _ _))
    rw [hsh]
    rfl
  obtain ⟨K, δ, d0, hK⟩ := C97_recovery env8 (.leaf (.sparse x8)) l8 r8 x8_valid trivial (by decide) x8_distinct x8_exact p1 p2
    (fun mu hmu => by rw [e]; exact le_antisymm (hle mu hmu) ((x8_rank _).trans (x8_omega_rank mu hmu)))
    (fun mu hmu => by
      have h1 := le_antisymm (x8_rank (mu + 1)) ((x8_omega_rank mu hmu).trans (hle mu hmu))
      rw [h1]
      revert mu
      exact two_cases (fun _ => rfl) (fun _ => rfl))
  refine ⟨K, δ, d0, fun ε hε h1 => ?_⟩
  have hQ := badBoth_qr env8 hε
  have hE := badBoth_lstsq env8 hε
  obtain ⟨Y, hY⟩ := C97_success_supplied (badBoth ε env8) ε hQ hE (.leaf (.sparse x8)) l8 r8 none none none
    x8_valid x8_distinct x8_exact l8_acc r8_acc rfl rfl (two_cases (by decide) (by decide)) (two_cases (by decide) (by decide))
  exact ⟨Y, hY, hK _ _ ε hε h1 hQ hE _ _ _ Y kw8_good hY⟩

end TTS.Props
