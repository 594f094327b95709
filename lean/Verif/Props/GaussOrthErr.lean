import Verif.Props.GaussErr
import Verif.Props.MomentsRandom
import Verif.Props.Nystrom
import Verif.Proofs.GaussOrth

/-!
# C73: mean errors of `orthogonal_sketch` with dense Gaussian DRMs

`MPContract`, `PinvsOf` are in `Spec/Nystrom.lean`, `GaussianDraws`, `MeanErrSq` and `Oversampled` in
`Spec/GaussErr.lean`.
-/

namespace TTS.Props

open TTS Finset MeasureTheory
open scoped ENNReal

/-- one step of the method `orthogonal`, when `lstsq` multiplies with the Moore-Penrose inverse -/
theorem orthStep_mp {env : Env ℝ} (hE : MPContract env) (hQ : QRContract env) {O : ND ℝ} {r f : ℕ}
    (hO : O.shape = [f, r]) {G : ℕ → ℕ → ℝ} (hG : IsPinv (O.asMatrix f r) (matOf r f G)) {P Q : ND ℝ} {a n : ℕ}
    (hP : P.shape = [a, n, r]) (hpos : 0 < a * n) (h : orthStep env P (some O) = .ok Q) :
    ∃ y : ℕ → ℕ → ℝ, ∀ i < a, ∀ j < n, ∀ c < f,
      ∑ t ∈ range f, Q.get [i, j, t] * y t c = ∑ b ∈ range r, P.get [i, j, b] * G b c := by
  rw [orthStep_eq hP hO] at h
  have hM := rightMulPinv_shape hE.pinv.lstsq.lstsqShape (P := P.reshape [a * n, r]) (m := a * n) rfl hO
  obtain ⟨-, -, h3⟩ := qrCore_spec hQ hM hpos h
  refine ⟨fun t c => (env.qr (rightMulPinv env (P.reshape [a * n, r]) O)).2.get [t, c], fun i hi j hj c hc => ?_⟩
  rw [h3 i hi j hj c hc]
  obtain ⟨C, c1, -, c3⟩ := rightCore_pinv hE hP hO hG
  rw [← c3 i hi j hj c hc]
  rw [reshape?_ok hM (by simp [mul_assoc])] at c1
  injection c1 with c1
  rw [← c1, ND.reshape_split12 hM i j c hj]

theorem orth_error_mp {env : Env ℝ} (hE : MPContract env) (hQ : QRContract env) {A : ND ℝ} {L R : Mats ℝ}
    {lr rr : List ℕ} {Y : TT ℝ}
    (h : OrthRun env A.shape A.get R lr rr (some (sketchOf A.shape A.get L R lr rr).omega) Y.cores A.shape.length)
    (hd : 2 ≤ A.shape.length) (hl : lr.length = A.shape.length - 1) (hr : rr.length = A.shape.length - 1)
    (hR : ∀ b, R A.shape.length [] b = 1) (p1 : ∀ n ∈ A.shape, 0 < n) (p2 : ∀ r ∈ lr, 0 < r)
    (G : ℕ → ℕ → ℕ → ℝ) (hG : PinvsOf A L R lr rr G) :
    distSq A Y.toNumpy ≤ ∑ mu ∈ range (A.shape.length - 1),
      nystromErrSq A L R (mu + 1) (lr.getD mu 0) (rr.getD mu 0) (G mu) := by
  have hom := (sketchOf_hasShape A.shape A.get L R lr rr).omega
  refine orthRun_error hE.pinv.lstsq hQ h (by omega) hl hr hom hR (positive_fit p1 p2 hl) _ fun mu hmu => ?_
  have hP := psiOf_shape A.shape A.get R lr rr Y.cores mu
  rw [List.getD_append _ _ _ _ (by omega)] at hP
  have hG' : IsPinv (((sketchOf A.shape A.get L R lr rr).omega.getD mu (ND.zeros [])).asMatrix (lr.getD mu 0) (rr.getD mu 0))
      (matOf (rr.getD mu 0) (lr.getD mu 0) (G mu)) := by
    have e : ((sketchOf A.shape A.get L R lr rr).omega.getD mu (ND.zeros [])).asMatrix (lr.getD mu 0) (rr.getD mu 0)
        = omegaMat A L R mu (lr.getD mu 0) (rr.getD mu 0) := by
      ext a b
      exact sketchOf_omega_get hmu a.2 b.2
    rw [e]
    exact hG mu hmu
  obtain ⟨y, hy⟩ := orthStep_mp hE hQ (hom mu hmu) hG' hP (positive_fit p1 p2 hl mu hmu) (h.step mu (by omega) hmu)
  refine ⟨fun t q => ∑ c ∈ range (lr.getD mu 0), y t c * leftSketch A L (mu + 1) c q, fun a ha j hj q => ?_⟩
  rw [sum_congr rfl fun t _ => mul_sum _ _ _, sum_comm, sum_congr rfl fun b _ => mul_sum _ _ _, sum_comm (s := range (rr.getD mu 0))]
  refine sum_congr rfl fun c hc => ?_
  simp only [← mul_assoc]
  rw [← sum_mul, ← sum_mul, hy a ha j hj c (by simpa using hc)]

/-- **C62, `orthogonal_sketch`, Moore-Penrose inverses.** If `lstsq` returns least squares solutions of least norm, the
squared error is at most the sum of the squared errors of the generalised Nyström approximations
`(X_mu R_mu) (L_mu X_mu R_mu)⁺ (L_mu X_mu)` of the unfoldings. -/
theorem C62_orth_mp (env : Env ℝ) (hE : MPContract env) (hQ : QRContract env) (X : Tensor ℝ) (lrank rrank : RankArg)
    (kw : SketchKw ℝ) (Y : TT ℝ) (l r : DRM ℝ) (hkw : kw.Good) (hX : X.Valid) (hne : X.NonEmpty)
    (hd : 2 ≤ X.shape.length) (hdist : X.Distinct) (hx : ∀ t ∈ X.summands, t.RightExact)
    (p1 : ∀ n ∈ X.shape, 0 < n) (p2 : ∀ r ∈ l.rank, 0 < r)
    (h : orthogonalSketch env X lrank rrank kw = .ok (Y, l, r)) (G : ℕ → ℕ → ℕ → ℝ)
    (hG : PinvsOf X.toNumpy (l.leftMats env) (r.rightMats env) l.rank r.rank.reverse G) :
    distSq X.toNumpy Y.toNumpy ≤ ∑ mu ∈ range (X.shape.length - 1),
      nystromErrSq X.toNumpy (l.leftMats env) (r.rightMats env) (mu + 1) (l.rank.getD mu 0)
        (r.rank.reverse.getD mu 0) (G mu) := by
  obtain ⟨hO, -⟩ := orth_inv hkw hX hne hd h
  obtain ⟨n1, n2⟩ := hO.accL.ranks hO.accR
  have hsh := Tensor.toNumpy_shape hX
  have hr := hO.run' hX (streamsWith_exact hX hO.accR hO.dirR hdist hx)
  have hs := hO.accR.shape
  rw [← hsh] at hr n1 n2 hd p1 hs ⊢
  exact orth_error_mp hE hQ hr hd n1 n2 (fun b => by rw [rightMats_last env (by rw [hs])]) p1 p2 G hG

/-- **C62, `orthogonal_sketch`, Moore-Penrose inverses, dense arrays** with any number of modes. -/
theorem C62_orth_mp_dense (env : Env ℝ) (hE : MPContract env) (hQ : QRContract env) (X : ND ℝ)
    (lrank rrank : RankArg) (kw : SketchKw ℝ) (Y : TT ℝ) (l r : DRM ℝ) (hkw : kw.Good)
    (hd : 2 ≤ X.shape.length) (p1 : ∀ n ∈ X.shape, 0 < n) (p2 : ∀ r ∈ l.rank, 0 < r)
    (h : orthogonalSketch env (.leaf (.dense X)) lrank rrank kw = .ok (Y, l, r)) (G : ℕ → ℕ → ℕ → ℝ)
    (hG : PinvsOf X (l.leftMats env) (r.rightMatsDense env) l.rank r.rank.reverse G) :
    distSq X Y.toNumpy ≤ ∑ mu ∈ range (X.shape.length - 1),
      nystromErrSq X (l.leftMats env) (r.rightMatsDense env) (mu + 1) (l.rank.getD mu 0)
        (r.rank.reverse.getD mu 0) (G mu) := by
  obtain ⟨hO, -⟩ := orth_inv (X := .leaf (.dense X)) hkw trivial trivial hd h
  obtain ⟨n1, n2⟩ := hO.accL.ranks hO.accR
  have hr := hO.run' trivial (streamsWith_dense hO.accR hO.dirR)
  have hs : X.shape = r.shape := hO.accR.shape
  exact orth_error_mp (A := X) hE hQ hr hd n1 n2 (fun b => by rw [rightMatsDense_last env (by rw [hs])]) p1 p2 G hG

variable {Ω : Type*} [MeasurableSpace Ω] {P : Measure Ω} {g : Ω → Draw → ℝ}

theorem oversampled_term2 {A B : ND ℝ} {mu k l r : ℕ} (h : Oversampled A B mu k l) (hr : l + 2 ≤ r ∨ B = A) :
    0 ≤ (1 + (l : ℝ) / ((r : ℝ) - l - 1)) * ((1 + (k : ℝ) / ((l : ℝ) - k - 1)) * distSq A B) := by
  rcases hr with hr | rfl
  · exact mul_nonneg (by linarith [ratio_nonneg hr]) (oversampled_term h)
  · have : distSq B B = 0 := by
      unfold distSq
      exact sumIdx_eq_zero fun i _ => by rw [sub_self]; norm_num
    rw [this, mul_zero, mul_zero]

/-- the errors of the bonds together -/
theorem bonds_nystrom (hg : GaussianDraws P g) {A : ND ℝ} {L R : (Draw → ℝ) → Mats ℝ} {l r : List ℕ} {s s' : ℕ → ℕ}
    (hL : GaussLeft L A.shape l s) (hR : GaussRight R A.shape r s') (hss : ∀ mu < A.shape.length - 1, s mu ≠ s' mu)
    (hlr : ∀ mu < A.shape.length - 1, l.getD mu 0 ≤ r.getD mu 0) (B : ℕ → ND ℝ) (k : ℕ → ℕ)
    (hB : ∀ mu < A.shape.length - 1, Oversampled A (B mu) mu (k mu) (l.getD mu 0))
    (hr : ∀ mu < A.shape.length - 1, l.getD mu 0 + 2 ≤ r.getD mu 0 ∨ B mu = A) :
    ∃ E : Ω → ℝ≥0∞, Measurable E ∧
      ∫⁻ ω, E ω ∂P ≤ ENNReal.ofReal (∑ mu ∈ range (A.shape.length - 1),
        (1 + (l.getD mu 0 : ℝ) / ((r.getD mu 0 : ℝ) - l.getD mu 0 - 1))
          * ((1 + (k mu : ℝ) / ((l.getD mu 0 : ℝ) - k mu - 1)) * distSq A (B mu))) ∧
      ∀ᵐ ω ∂P, ∀ G, PinvsOf A (L (g ω)) (R (g ω)) l r G → ENNReal.ofReal (∑ mu ∈ range (A.shape.length - 1),
        nystromErrSq A (L (g ω)) (R (g ω)) (mu + 1) (l.getD mu 0) (r.getD mu 0) (G mu)) ≤ E ω := by
  have h : ∀ mu, ∃ E : Ω → ℝ≥0∞, mu < A.shape.length - 1 → Measurable E ∧
      ∫⁻ ω, E ω ∂P ≤ ENNReal.ofReal ((1 + (l.getD mu 0 : ℝ) / ((r.getD mu 0 : ℝ) - l.getD mu 0 - 1))
          * ((1 + (k mu : ℝ) / ((l.getD mu 0 : ℝ) - k mu - 1)) * distSq A (B mu))) ∧
      ∀ᵐ ω ∂P, ∀ G, IsPinv (omegaMat A (L (g ω)) (R (g ω)) mu (l.getD mu 0) (r.getD mu 0))
          (matOf (r.getD mu 0) (l.getD mu 0) G) →
        ENNReal.ofReal (nystromErrSq A (L (g ω)) (R (g ω)) (mu + 1) (l.getD mu 0) (r.getD mu 0) G) ≤ E ω := by
    intro mu
    by_cases hmu : mu < A.shape.length - 1
    · obtain ⟨E, h⟩ := bond_nystrom hg hL hR hmu (hss mu hmu) (hB mu hmu)
        ((hr mu hmu).imp_right fun h => ⟨h, hlr mu hmu⟩)
      exact ⟨E, fun _ => h⟩
    · exact ⟨fun _ => 0, fun h => absurd h hmu⟩
  choose E hE using h
  refine ⟨fun ω => ∑ mu ∈ range (A.shape.length - 1), E mu ω,
    Finset.measurable_sum _ fun mu hmu => (hE mu (mem_range.1 hmu)).1, ?_, ?_⟩
  · rw [lintegral_finsetSum' _ fun mu hmu => (hE mu (mem_range.1 hmu)).1.aemeasurable,
      ENNReal.ofReal_sum_of_nonneg fun mu hmu => oversampled_term2 (hB mu (mem_range.1 hmu)) (hr mu (mem_range.1 hmu))]
    exact sum_le_sum fun mu hmu => (hE mu (mem_range.1 hmu)).2.1
  · have : ∀ᵐ ω ∂P, ∀ mu, mu < A.shape.length - 1 →
        ∀ G, IsPinv (omegaMat A (L (g ω)) (R (g ω)) mu (l.getD mu 0) (r.getD mu 0))
          (matOf (r.getD mu 0) (l.getD mu 0) G) →
        ENNReal.ofReal (nystromErrSq A (L (g ω)) (R (g ω)) (mu + 1) (l.getD mu 0) (r.getD mu 0) G) ≤ E mu ω := by
      rw [ae_all_iff]
      intro mu
      rw [Filter.eventually_imp_distrib_left]
      exact fun hmu => (hE mu hmu).2.2
    filter_upwards [this] with ω hω G hG
    rw [ENNReal.ofReal_sum_of_nonneg fun mu _ => show 0 ≤ nystromErrSq _ _ _ _ _ _ _ from sumIdx_nonneg fun i => sq_nonneg _]
    exact sum_le_sum fun mu hmu => hω mu (mem_range.1 hmu) _ (hG mu (mem_range.1 hmu))

/-- **C73.** `orthogonal_sketch` with dense Gaussian DRMs and independent standard normal draws: whatever arrays `B_mu`
whose `mu`-th unfolding has rank at most `k_mu` one compares with, the mean squared error is at most
`∑ (1 + l / (r - l - 1)) (1 + k / (l - k - 1)) ‖X - B_mu‖²`, where `l` and `r` are the ranks of the left and of the right
sketch. -/
theorem C73 (hg : GaussianDraws P g) (env : Env ℝ) (hE : MPContract env) (hQ : QRContract env) (X : Tensor ℝ)
    (lrank rrank : RankArg) (seed : Option ℕ) (hX : X.Valid) (hne : X.NonEmpty) (hd : 2 ≤ X.shape.length)
    (hdist : X.Distinct) (hx : ∀ t ∈ X.summands, t.RightExact)
    (hl : (ranksOf lrank X.shape.length).length = X.shape.length - 1)
    (hr : (ranksOf rrank X.shape.length).length = X.shape.length - 1)
    (ho : ∀ k < X.shape.length - 1, (ranksOf lrank X.shape.length).getD k 0 < (ranksOf rrank X.shape.length).getD k 0)
    (p1 : ∀ n ∈ X.shape, 0 < n) (p2 : ∀ r ∈ ranksOf lrank X.shape.length, 0 < r) (hseed : seed.getD 0 < 2 ^ 32)
    (hsup : ∀ t ∈ X.summands, ∀ D : DRMData ℝ, D.kind = .denseGaussian → D.supports t = true)
    (hap : env.StreamsApart X.shape (env.sketchSeed seed) (env.rightSeed (env.sketchSeed seed) X.shape.length))
    (B : ℕ → ND ℝ) (k : ℕ → ℕ)
    (hB : ∀ mu < X.shape.length - 1, Oversampled X.toNumpy (B mu) mu (k mu)
      ((trimRanks X.shape (ranksOf lrank X.shape.length)).getD mu 0))
    (hover : ∀ mu < X.shape.length - 1, (trimRanks X.shape (ranksOf lrank X.shape.length)).getD mu 0 + 2
      ≤ (ranksOf rrank X.shape.length).getD mu 0 ∨ B mu = X.toNumpy) :
    MeanErrSq P (fun ω => (orthogonalSketch (env.withDraws (g ω)) X lrank rrank
        { seed := seed, leftType := some .denseGaussian, rightType := some .denseGaussian }).map Prod.fst) X.toNumpy
      (∑ mu ∈ range (X.shape.length - 1),
        (1 + ((trimRanks X.shape (ranksOf lrank X.shape.length)).getD mu 0 : ℝ)
          / (((ranksOf rrank X.shape.length).getD mu 0 : ℝ) - (trimRanks X.shape (ranksOf lrank X.shape.length)).getD mu 0 - 1))
        * ((1 + (k mu : ℝ) / (((trimRanks X.shape (ranksOf lrank X.shape.length)).getD mu 0 : ℝ) - k mu - 1))
          * distSq X.toNumpy (B mu))) := by
  have hsh := Tensor.toNumpy_shape hX
  have hlen := usedRanks_length (rank := lrank) true (show 1 ≤ X.shape.length by omega) hl
  have hlen' := usedRanks_length (rank := rrank) false (show 1 ≤ X.shape.length by omega) hr
  have hS := fun ω => C41_success (env.withDraws (g ω)) hE.pinv.lstsq hQ X lrank rrank seed (some .denseGaussian)
    (some .denseGaussian) hX hd hdist hx hl hr ho p1 p2 hseed (fun t ht D hD => hsup t ht D (hD.elim id id))
  refine ⟨fun ω => ?_, ?_⟩
  · obtain ⟨Y, l, r, h⟩ := hS ω
    exact ⟨Y, by rw [h]; rfl⟩
  have hL := leftMats_gauss env X.shape (usedRanks X.shape lrank true) (env.sketchSeed seed)
  have hR := rightMats_gauss env X.shape (usedRanks X.shape rrank false)
    (env.rightSeed (env.sketchSeed seed) X.shape.length) hlen'
  rw [← hsh] at hR hL
  obtain ⟨E, e1, e2, e3⟩ := bonds_nystrom hg hL hR (by rw [hsh]; exact hap)
    (by rw [hsh]; exact fun mu hmu => (trim_le (by omega) mu (by omega)).trans (ho mu hmu).le) B k
    (by rw [hsh]; exact hB) (by rw [hsh]; exact hover)
  rw [hsh] at e2 e3
  refine ⟨E, e1, e2, ?_⟩
  filter_upwards [e3] with ω hω Y' hY'
  obtain ⟨Y, l, r, h⟩ := hS ω
  obtain rfl : Y = Y' := by rw [h] at hY'; injection hY'
  obtain ⟨d1, d2⟩ := orth_drms hd hl hr hseed h
  have hkw : SketchKw.Good (K := ℝ) { seed := seed, leftType := some .denseGaussian, rightType := some .denseGaussian } :=
    SketchKw.good_none _ _ _
  have eL : l.rank = usedRanks X.shape lrank true := by
    rw [d1]
    exact made_rank _ _ _ _ _ _ hlen
  have eR : r.rank.reverse = usedRanks X.shape rrank false := by
    rw [d2, made_rank _ _ _ _ _ _ hlen']
    show List.reverse (List.reverse _) = _
    rw [List.reverse_reverse]
  obtain ⟨G, hG⟩ := pinvs_exist X.toNumpy (l.leftMats (env.withDraws (g ω))) (r.rightMats (env.withDraws (g ω)))
    l.rank r.rank.reverse
  have := C62_orth_mp (env.withDraws (g ω)) hE hQ X lrank rrank _ Y l r hkw hX hne hd hdist hx p1
    (by rw [eL]; exact used_pos (by omega) hl p1 p2) h G hG
  refine (ENNReal.ofReal_le_ofReal this).trans ?_
  rw [eL, eR, d1, d2] at hG ⊢
  exact hω G hG

/-- **C73, dense arrays** with any number of modes. -/
theorem C73_dense (hg : GaussianDraws P g) (env : Env ℝ) (hE : MPContract env) (hQ : QRContract env) (X : ND ℝ)
    (lrank rrank : RankArg) (seed : Option ℕ) (hd : 2 ≤ X.shape.length)
    (hl : (ranksOf lrank X.shape.length).length = X.shape.length - 1)
    (hr : (ranksOf rrank X.shape.length).length = X.shape.length - 1)
    (ho : ∀ k < X.shape.length - 1, (ranksOf lrank X.shape.length).getD k 0 < (ranksOf rrank X.shape.length).getD k 0)
    (p1 : ∀ n ∈ X.shape, 0 < n) (p2 : ∀ r ∈ ranksOf lrank X.shape.length, 0 < r) (hseed : seed.getD 0 < 2 ^ 32)
    (hap : env.StreamsApart X.shape (env.sketchSeed seed) (env.rightSeed (env.sketchSeed seed) X.shape.length))
    (B : ℕ → ND ℝ) (k : ℕ → ℕ)
    (hB : ∀ mu < X.shape.length - 1, Oversampled X (B mu) mu (k mu)
      ((trimRanks X.shape (ranksOf lrank X.shape.length)).getD mu 0))
    (hover : ∀ mu < X.shape.length - 1, (trimRanks X.shape (ranksOf lrank X.shape.length)).getD mu 0 + 2
      ≤ (ranksOf rrank X.shape.length).getD mu 0 ∨ B mu = X) :
    MeanErrSq P (fun ω => (orthogonalSketch (env.withDraws (g ω)) (.leaf (.dense X)) lrank rrank
        { seed := seed, leftType := some .denseGaussian, rightType := some .denseGaussian }).map Prod.fst) X
      (∑ mu ∈ range (X.shape.length - 1),
        (1 + ((trimRanks X.shape (ranksOf lrank X.shape.length)).getD mu 0 : ℝ)
          / (((ranksOf rrank X.shape.length).getD mu 0 : ℝ) - (trimRanks X.shape (ranksOf lrank X.shape.length)).getD mu 0 - 1))
        * ((1 + (k mu : ℝ) / (((trimRanks X.shape (ranksOf lrank X.shape.length)).getD mu 0 : ℝ) - k mu - 1))
          * distSq X (B mu))) := by
  have hlen := usedRanks_length (rank := lrank) true (show 1 ≤ X.shape.length by omega) hl
  have hlen' := usedRanks_length (rank := rrank) false (show 1 ≤ X.shape.length by omega) hr
  have hS := fun ω => C41_success_dense (env.withDraws (g ω)) hE.pinv.lstsq hQ X lrank rrank seed (some .denseGaussian)
    (some .denseGaussian) hd hl hr ho p1 p2 hseed (by
      intro D hD
      have hD : D.kind = .denseGaussian := hD.elim id id
      cases D <;> simp [DRMData.kind] at hD; rfl)
  refine ⟨fun ω => ?_, ?_⟩
  · obtain ⟨Y, l, r, h⟩ := hS ω
    exact ⟨Y, by rw [h]; rfl⟩
  have hL := leftMats_gauss env X.shape (usedRanks X.shape lrank true) (env.sketchSeed seed)
  have hR := rightMatsDense_gauss env X.shape (usedRanks X.shape rrank false)
    (env.rightSeed (env.sketchSeed seed) X.shape.length) hlen'
  obtain ⟨E, e1, e2, e3⟩ := bonds_nystrom hg hL hR hap
    (fun mu hmu => (trim_le (by omega) mu (by omega)).trans (ho mu hmu).le) B k hB hover
  refine ⟨E, e1, e2, ?_⟩
  filter_upwards [e3] with ω hω Y' hY'
  obtain ⟨Y, l, r, h⟩ := hS ω
  obtain rfl : Y = Y' := by rw [h] at hY'; injection hY'
  obtain ⟨d1, d2⟩ := orth_drms (X := .leaf (.dense X)) hd hl hr hseed h
  have hkw : SketchKw.Good (K := ℝ) { seed := seed, leftType := some .denseGaussian, rightType := some .denseGaussian } :=
    SketchKw.good_none _ _ _
  have eL : l.rank = usedRanks X.shape lrank true := by
    rw [d1]
    exact made_rank _ _ X.shape _ _ _ hlen
  have eR : r.rank.reverse = usedRanks X.shape rrank false := by
    rw [d2]
    refine (congrArg List.reverse (made_rank _ _ X.shape _ _ _ hlen')).trans ?_
    show List.reverse (List.reverse _) = _
    rw [List.reverse_reverse]
  obtain ⟨G, hG⟩ := pinvs_exist X (l.leftMats (env.withDraws (g ω))) (r.rightMatsDense (env.withDraws (g ω)))
    l.rank r.rank.reverse
  have := C62_orth_mp_dense (env.withDraws (g ω)) hE hQ X lrank rrank _ Y l r hkw hd p1
    (by rw [eL]; exact used_pos (by omega) hl p1 p2) h G hG
  refine (ENNReal.ofReal_le_ofReal this).trans ?_
  rw [eL, eR, d1, d2] at hG ⊢
  exact hω G hG

/-- **C73, in terms of singular values.** -/
theorem C73_svd (hg : GaussianDraws P g) (env : Env ℝ) (hE : MPContract env) (hQ : QRContract env) (X : Tensor ℝ)
    (lrank rrank : RankArg) (seed : Option ℕ) (hX : X.Valid) (hne : X.NonEmpty) (hd : 2 ≤ X.shape.length)
    (hdist : X.Distinct) (hx : ∀ t ∈ X.summands, t.RightExact)
    (hl : (ranksOf lrank X.shape.length).length = X.shape.length - 1)
    (hr : (ranksOf rrank X.shape.length).length = X.shape.length - 1)
    (ho : ∀ k < X.shape.length - 1, (ranksOf lrank X.shape.length).getD k 0 < (ranksOf rrank X.shape.length).getD k 0)
    (p1 : ∀ n ∈ X.shape, 0 < n) (p2 : ∀ r ∈ ranksOf lrank X.shape.length, 0 < r) (hseed : seed.getD 0 < 2 ^ 32)
    (hsup : ∀ t ∈ X.summands, ∀ D : DRMData ℝ, D.kind = .denseGaussian → D.supports t = true)
    (hap : env.StreamsApart X.shape (env.sketchSeed seed) (env.rightSeed (env.sketchSeed seed) X.shape.length))
    (S : ℕ → List ℝ) (hS : ∀ mu < X.shape.length - 1, Spec.IsSingularValues X.toNumpy (mu + 1) (S mu)) (k : ℕ → ℕ)
    (hk : ∀ mu < X.shape.length - 1, k mu + 2 ≤ (trimRanks X.shape (ranksOf lrank X.shape.length)).getD mu 0 ∨
      ((S mu).length ≤ k mu ∧ k mu ≤ (trimRanks X.shape (ranksOf lrank X.shape.length)).getD mu 0))
    (hover : ∀ mu < X.shape.length - 1, (trimRanks X.shape (ranksOf lrank X.shape.length)).getD mu 0 + 2
      ≤ (ranksOf rrank X.shape.length).getD mu 0) :
    MeanErrSq P (fun ω => (orthogonalSketch (env.withDraws (g ω)) X lrank rrank
        { seed := seed, leftType := some .denseGaussian, rightType := some .denseGaussian }).map Prod.fst) X.toNumpy
      (∑ mu ∈ range (X.shape.length - 1),
        (1 + ((trimRanks X.shape (ranksOf lrank X.shape.length)).getD mu 0 : ℝ)
          / (((ranksOf rrank X.shape.length).getD mu 0 : ℝ) - (trimRanks X.shape (ranksOf lrank X.shape.length)).getD mu 0 - 1))
        * ((1 + (k mu : ℝ) / (((trimRanks X.shape (ranksOf lrank X.shape.length)).getD mu 0 : ℝ) - k mu - 1))
          * ∑ t ∈ Ico (k mu) (S mu).length, (S mu).getD t 0 ^ 2)) := by
  have hsh := Tensor.toNumpy_shape hX
  obtain ⟨B, b1, b2⟩ := svd_bonds (A := X.toNumpy) (k := k) (l := trimRanks X.shape (ranksOf lrank X.shape.length))
    (by rw [hsh]; exact hS) (by rw [hsh]; exact hk)
  rw [hsh] at b1 b2
  have := C73 hg env hE hQ X lrank rrank seed hX hne hd hdist hx hl hr ho p1 p2 hseed hsup hap B k b1
    fun mu hmu => .inl (hover mu hmu)
  rwa [sum_congr rfl fun mu hmu => by rw [b2 mu (mem_range.1 hmu)]] at this

/-- **C73, in terms of singular values, dense arrays.** -/
theorem C73_dense_svd (hg : GaussianDraws P g) (env : Env ℝ) (hE : MPContract env) (hQ : QRContract env) (X : ND ℝ)
    (lrank rrank : RankArg) (seed : Option ℕ) (hd : 2 ≤ X.shape.length)
    (hl : (ranksOf lrank X.shape.length).length = X.shape.length - 1)
    (hr : (ranksOf rrank X.shape.length).length = X.shape.length - 1)
    (ho : ∀ k < X.shape.length - 1, (ranksOf lrank X.shape.length).getD k 0 < (ranksOf rrank X.shape.length).getD k 0)
    (p1 : ∀ n ∈ X.shape, 0 < n) (p2 : ∀ r ∈ ranksOf lrank X.shape.length, 0 < r) (hseed : seed.getD 0 < 2 ^ 32)
    (hap : env.StreamsApart X.shape (env.sketchSeed seed) (env.rightSeed (env.sketchSeed seed) X.shape.length))
    (S : ℕ → List ℝ) (hS : ∀ mu < X.shape.length - 1, Spec.IsSingularValues X (mu + 1) (S mu)) (k : ℕ → ℕ)
    (hk : ∀ mu < X.shape.length - 1, k mu + 2 ≤ (trimRanks X.shape (ranksOf lrank X.shape.length)).getD mu 0 ∨
      ((S mu).length ≤ k mu ∧ k mu ≤ (trimRanks X.shape (ranksOf lrank X.shape.length)).getD mu 0))
    (hover : ∀ mu < X.shape.length - 1, (trimRanks X.shape (ranksOf lrank X.shape.length)).getD mu 0 + 2
      ≤ (ranksOf rrank X.shape.length).getD mu 0) :
    MeanErrSq P (fun ω => (orthogonalSketch (env.withDraws (g ω)) (.leaf (.dense X)) lrank rrank
        { seed := seed, leftType := some .denseGaussian, rightType := some .denseGaussian }).map Prod.fst) X
      (∑ mu ∈ range (X.shape.length - 1),
        (1 + ((trimRanks X.shape (ranksOf lrank X.shape.length)).getD mu 0 : ℝ)
          / (((ranksOf rrank X.shape.length).getD mu 0 : ℝ) - (trimRanks X.shape (ranksOf lrank X.shape.length)).getD mu 0 - 1))
        * ((1 + (k mu : ℝ) / (((trimRanks X.shape (ranksOf lrank X.shape.length)).getD mu 0 : ℝ) - k mu - 1))
          * ∑ t ∈ Ico (k mu) (S mu).length, (S mu).getD t 0 ^ 2)) := by
  obtain ⟨B, b1, b2⟩ := svd_bonds (k := k) (l := trimRanks X.shape (ranksOf lrank X.shape.length)) hS hk
  have := C73_dense hg env hE hQ X lrank rrank seed hd hl hr ho p1 p2 hseed hap B k b1
    fun mu hmu => .inl (hover mu hmu)
  rwa [sum_congr rfl fun mu hmu => by rw [b2 mu (mem_range.1 hmu)]] at this

/-! ### Example

The `2 × 4 × 4` array of C72 with left rank three (trimmed to `[2, 3]`) and right rank five. -/

noncomputable def env73 : Env ℝ := { env68 with lstsq := mpChoice }

theorem env73_apart : env73.StreamsApart [2, 4, 4] 7 (env73.rightSeed 7 3) := by
  have e : env73.rightSeed 7 3 = 10 := by decide
  rw [e]
  refine two_cases ?_ ?_ <;> decide

example : MeanErrSq normalDraws (fun ω => (orthogonalSketch (env73.withDraws ω) (.leaf (.dense x72)) (.int 3) (.int 5)
      { seed := some 7, leftType := some .denseGaussian, rightType := some .denseGaussian }).map Prod.fst) x72
    (∑ mu ∈ range 2, (1 + ((([2, 3] : List ℕ).getD mu 0 : ℕ) : ℝ)
        / (((([5, 5] : List ℕ).getD mu 0 : ℕ) : ℝ) - (([2, 3] : List ℕ).getD mu 0 : ℕ) - 1))
      * ((1 + (([2, 1].getD mu 0 : ℕ) : ℝ) / (((([2, 3] : List ℕ).getD mu 0 : ℕ) : ℝ) - ([2, 1].getD mu 0 : ℕ) - 1))
        * distSq x72 ([x72, b72].getD mu x72))) :=
  C73_dense normalDraws_gaussian env73 (mpChoice_contract rfl) (qrChoice_contract rfl) x72 (.int 3) (.int 5) (some 7)
    (by decide) rfl rfl (by decide) (by decide) (by decide) (by decide) env73_apart (fun mu => [x72, b72].getD mu x72)
    (fun mu => [2, 1].getD mu 0) (two_cases x72_one b72_over) (two_cases (.inl (by decide)) (.inl (by decide)))

end TTS.Props
