import Verif.Props.FloatOrthSketch

/-!
# C108 and C109: bounds that do not depend on the run

`psiErrorBound` is in `Spec/FloatHmt.lean`.
-/

namespace TTS.Props

open TTS Finset

theorem frobN_near {ε : ℝ} (hε : 0 ≤ ε) {C : ND ℝ} {a n r : ℕ} (hC : C.shape = [a, n, r])
    (h : C.NearLeftOrthogonal (2 * ε + ε ^ 2)) : frobN C ≤ (1 + ε) * √ (r : ℝ) := by
  have e0 : C.dim 0 = a := by unfold ND.dim; rw [hC]; rfl
  have e1 : C.dim 1 = n := by unfold ND.dim; rw [hC]; rfl
  have e2 : C.dim 2 = r := by unfold ND.dim; rw [hC]; rfl
  have e : frobN C ^ 2 = ∑ s ∈ range r, ∑ i ∈ range a, ∑ j ∈ range n, C.get [i, j, s] * C.get [i, j, s] := by
    rw [← frobD_zeros C [], frob3 hC]
    simp only [ND.zeros_get, sub_zero, pow_two]
    rw [sum_comm (s := range r)]
    exact sum_congr rfl fun i _ => sum_comm
  have k : ∀ s ∈ range r, ∑ i ∈ range a, ∑ j ∈ range n, C.get [i, j, s] * C.get [i, j, s] ≤ (1 + ε) ^ 2 := by
    intro s hs
    have hs : s < r := by simpa using hs
    have := h s (by rw [e2]; exact hs) s (by rw [e2]; exact hs)
    rw [e0, e1, if_pos rfl] at this
    have := (abs_le.1 this).2
    nlinarith
  have k2 := sum_le_sum k
  rw [← e, sum_const, card_range, nsmul_eq_mul] at k2
  have hr : (0 : ℝ) ≤ r := Nat.cast_nonneg r
  refine le_of_sq_le_sq ?_ (mul_nonneg (by linarith) (Real.sqrt_nonneg _))
  rw [mul_pow, Real.sq_sqrt hr]
  linarith

/-- `psiError` is at most `psiErrorBound` if all cores but the last are nearly orthogonal. -/
theorem psiError_le {u ε : ℝ} (hu : 0 ≤ u) (hε : 0 ≤ ε) {X : Tensor ℝ} {D : DRM ℝ} {R : Mats ℝ} {Y : TT ℝ} {lr : List ℕ}
    (hY : Y.Valid) (hs : Y.shape = X.shape) (hr : Y.rank = lr)
    (ho : ∀ C ∈ Y.cores.dropLast, C.NearLeftOrthogonal (2 * ε + ε ^ 2)) {mu : ℕ} (hmu : mu < X.shape.length) :
    psiError u X lr D R Y.cores mu ≤ psiErrorBound u ε X lr D R mu := by
  unfold psiError psiErrorBound psiSize
  refine mul_le_mul_of_nonneg_left (mul_le_mul_of_nonneg_right ?_ (Real.sqrt_nonneg _)) (flErr_nonneg hu _)
  refine prod_le_prod (fun _ _ => frobN_nonneg _) fun nu hnu => ?_
  have hnu : nu < mu := by simpa using hnu
  have hl : Y.cores.length = X.shape.length := by rw [← hs]; simp [TT.shape]
  have h1 : nu < Y.cores.dropLast.length := by rw [List.length_dropLast]; omega
  have h2 := ho _ (List.getElem_mem h1)
  rw [List.getElem_dropLast] at h2
  rw [getD_eq (by omega)]
  obtain ⟨x, hx, -, -⟩ := hY.cores
  have hc := hx nu (by omega)
  rw [getD_eq (by omega)] at hc
  rw [← hr, TT.rank_getD hx (by omega)]
  exact frobN_near hε hc h2

theorem hmtFloatRounding_mono {ε : ℝ} (hε : 0 ≤ ε) (A : ND ℝ) (R : Mats ℝ) (ranks : List ℕ) (B : ℕ → ℕ → List ℕ → ℝ)
    {E E' : ℕ → ℝ} (h0 : ∀ mu ≤ A.shape.length - 1, 0 ≤ E mu) (h : ∀ mu ≤ A.shape.length - 1, E mu ≤ E' mu) :
    hmtFloatRounding A R ranks ε E B ≤ hmtFloatRounding A R ranks ε E' B := by
  unfold hmtFloatRounding
  refine add_le_add (add_le_add_left (Real.sqrt_le_sqrt (sum_le_sum fun mu hmu => ?_)) _)
    (mul_le_mul_of_nonneg_left (h _ le_rfl) (by positivity))
  have hmu : mu < A.shape.length - 1 := by simpa using hmu
  have s0 : 0 ≤ sketchedNorm A R (mu + 1) (ranks.getD mu 0) := Real.sqrt_nonneg _
  have b0 : 0 ≤ coeffNorm A.shape (mu + 1) (ranks.getD mu 0) (B mu) := Real.sqrt_nonneg _
  have e0 := h0 mu hmu.le
  have := mul_le_mul_of_nonneg_left (h mu hmu.le) (show 0 ≤ 1 + ε by linarith)
  exact pow_le_pow_left₀ (by positivity) (mul_le_mul_of_nonneg_right (by linarith) b0) 2

theorem orthFloatBound_mono {ε : ℝ} (hε : 0 ≤ ε) (A : ND ℝ) (L R : Mats ℝ) (lr rr : List ℕ) (B : ℕ → ℕ → List ℕ → ℝ)
    (H : ℕ → List ℕ → ℕ → ℝ) {eO E E' c c' : ℕ → ℝ} (hO : ∀ mu, 0 ≤ eO mu)
    (h0 : ∀ mu ≤ A.shape.length - 1, 0 ≤ E mu) (h : ∀ mu ≤ A.shape.length - 1, E mu ≤ E' mu)
    (hc0 : ∀ mu < A.shape.length - 1, 0 ≤ c mu) (hc : ∀ mu < A.shape.length - 1, c mu ≤ c' mu) :
    orthFloatBound ε A L R lr rr eO E B H c ≤ orthFloatBound ε A L R lr rr eO E' B H c' := by
  unfold orthFloatBound
  refine add_le_add (add_le_add_left (add_le_add_right (Real.sqrt_le_sqrt (sum_le_sum fun mu hmu => ?_)) _) _)
    (mul_le_mul_of_nonneg_left (h _ le_rfl) (by positivity))
  have hmu : mu < A.shape.length - 1 := by simpa using hmu
  have s0 : 0 ≤ sketchedNorm A R (mu + 1) (rr.getD mu 0) := Real.sqrt_nonneg _
  have f0 : 0 ≤ fitErr A L R (mu + 1) (lr.getD mu 0) (rr.getD mu 0) (H mu) := Real.sqrt_nonneg _
  have m0 : 0 ≤ midNorm A L R (mu + 1) (lr.getD mu 0) (rr.getD mu 0) := Real.sqrt_nonneg _
  have r0 : 0 ≤ rowCoeffNorm A.shape (mu + 1) (lr.getD mu 0) (H mu) := Real.sqrt_nonneg _
  have b0 : 0 ≤ coeffNorm A.shape (mu + 1) (rr.getD mu 0) (B mu) := Real.sqrt_nonneg _
  have e0 := h0 mu hmu.le
  have o0 := hO mu
  have c0 := hc0 mu hmu
  unfold orthFloatBond
  refine pow_le_pow_left₀ (by positivity) (mul_le_mul_of_nonneg_right ?_ b0) 2
  have k1 := mul_le_mul_of_nonneg_left (hc mu hmu) (show 0 ≤ 2 * ε * midNorm A L R (mu + 1) (lr.getD mu 0) (rr.getD mu 0)
    + (1 + ε) * eO mu by positivity)
  have k2 := mul_le_mul_of_nonneg_left (h mu hmu.le) (show 0 ≤ 2 * (1 + ε) by positivity)
  linarith

/-- **C108, a bound that does not depend on the run.** -/
theorem C108_apriori (u : ℝ) (hu : 0 ≤ u) (env : Env ℝ) (ε : ℝ) (hε : 0 ≤ ε) (hQ : QRApproxContract env ε) (X : Tensor ℝ)
    (rank : RankArg) (seed : Option ℕ) (kind : Option DRMKind) (drm : Option (DRM ℝ)) (Y : TT ℝ) (D : DRM ℝ)
    (hg : ∀ D, drm = some D → D.WF ∧ D.toDRMBase.Full ∧ D.transpose = true) (hX : X.Valid) (hne : X.NonEmpty)
    (hd : 2 ≤ X.shape.length) (hdist : X.Distinct) (hx : ∀ t ∈ X.summands, t.RightExact)
    (p1 : ∀ n ∈ X.shape, 0 < n) (p2 : ∀ r ∈ D.rank, 0 < r)
    (hD : hmtDRM env X.shape rank (seed.getD (env.freshSeed % 2 ^ 32)) kind drm = .ok D)
    (h : FlHmtSketch u env X rank seed kind drm Y) (B : ℕ → ℕ → List ℕ → ℝ) :
    frobD X.toNumpy Y.toNumpy ≤ √ (∑ mu ∈ range (X.shape.length - 1),
        rangeErrSq X.toNumpy (D.rightMats env) (mu + 1) (D.rank.reverse.getD mu 0) (B mu))
      + hmtFloatRounding X.toNumpy (D.rightMats env) D.rank.reverse ε
          (psiErrorBound u ε X D.rank.reverse D (D.absRightMats env)) B := by
  obtain ⟨h1, h2, h3, h4, h5⟩ := C108 u hu env ε hε hQ X rank seed kind drm Y D hg hX hne hd hdist hx p1 p2 hD h
  have hsh := Tensor.toNumpy_shape hX
  refine (h5 B).trans (add_le_add_right (hmtFloatRounding_mono hε _ _ _ _ (fun mu _ => ?_) fun mu hmu => ?_) _)
  · exact mul_nonneg (flErr_nonneg hu _) (psiSize_nonneg _ _ _ _ _)
  · rw [hsh] at hmu
    exact psiError_le hu hε h1 h2 h3 h4 (by omega)

/-- **C108, a bound that does not depend on the run, dense arrays** with any number of modes. -/
theorem C108_apriori_dense (u : ℝ) (hu : 0 ≤ u) (env : Env ℝ) (ε : ℝ) (hε : 0 ≤ ε) (hQ : QRApproxContract env ε) (X : ND ℝ)
    (rank : RankArg) (seed : Option ℕ) (kind : Option DRMKind) (drm : Option (DRM ℝ)) (Y : TT ℝ) (D : DRM ℝ)
    (hg : ∀ D, drm = some D → D.WF ∧ D.toDRMBase.Full ∧ D.transpose = true)
    (hd : 2 ≤ X.shape.length) (p1 : ∀ n ∈ X.shape, 0 < n) (p2 : ∀ r ∈ D.rank, 0 < r)
    (hD : hmtDRM env X.shape rank (seed.getD (env.freshSeed % 2 ^ 32)) kind drm = .ok D)
    (h : FlHmtSketch u env (.leaf (.dense X)) rank seed kind drm Y) (B : ℕ → ℕ → List ℕ → ℝ) :
    frobD X Y.toNumpy ≤ √ (∑ mu ∈ range (X.shape.length - 1),
        rangeErrSq X (D.rightMatsDense env) (mu + 1) (D.rank.reverse.getD mu 0) (B mu))
      + hmtFloatRounding X (D.rightMatsDense env) D.rank.reverse ε
          (psiErrorBound u ε (.leaf (.dense X)) D.rank.reverse D (D.absRightMatsDense env)) B := by
  obtain ⟨h1, h2, h3, h4, h5⟩ := C108_dense u hu env ε hε hQ X rank seed kind drm Y D hg hd p1 p2 hD h
  refine (h5 B).trans (add_le_add_right (hmtFloatRounding_mono hε _ _ _ _ (fun mu _ => ?_) fun mu hmu => ?_) _)
  · exact mul_nonneg (flErr_nonneg hu _) (psiSize_nonneg _ _ _ _ _)
  · refine psiError_le (X := .leaf (.dense X)) hu hε h1 h2 h3 h4 ?_
    show mu < X.shape.length
    omega

/-- **C109, a bound that does not depend on the run.** If every `Omega[mu]` has a right inverse `G mu` that is not too large
compared with the errors, the norms of the computed solutions and the rounding errors of the Psi cores can be bounded without
the run. -/
theorem C109_apriori (u : ℝ) (hu : 0 ≤ u) (env : Env ℝ) (ε : ℝ) (hε : 0 ≤ ε) (hQ : QRApproxContract env ε)
    (hE : LstsqApproxContract env ε) (X : Tensor ℝ) (lrank rrank : RankArg) (kw : SketchKw ℝ) (Y : TT ℝ) (l r : DRM ℝ)
    (hkw : kw.Good) (hX : X.Valid) (hne : X.NonEmpty) (hd : 2 ≤ X.shape.length) (hdist : X.Distinct)
    (hx : ∀ t ∈ X.summands, t.RightExact) (p1 : ∀ n ∈ X.shape, 0 < n) (p2 : ∀ r ∈ l.rank, 0 < r)
    (h : FlOrthogonalSketch u env X lrank rrank kw Y l r) (G : ℕ → ND ℝ)
    (hG : ∀ mu < X.shape.length - 1, (G mu).shape = [r.rank.reverse.getD mu 0, l.rank.getD mu 0])
    (hinv : ∀ mu < X.shape.length - 1, ∀ a < l.rank.getD mu 0, ∀ c < l.rank.getD mu 0,
      ∑ b ∈ range (r.rank.reverse.getD mu 0), midSketch X.toNumpy (l.leftMats env) (r.rightMats env) (mu + 1) a b
        * (G mu).get [b, c] = if a = c then 1 else 0)
    (hsmall : ∀ mu < X.shape.length - 1, frobN (G mu) * (ε * midNorm X.toNumpy (l.leftMats env) (r.rightMats env) (mu + 1)
      (l.rank.getD mu 0) (r.rank.reverse.getD mu 0)
        + (1 + ε) * omegaError u X l r (l.absLeftMats env) (r.absRightMats env) mu) ≤ 1 / 2)
    (B : ℕ → ℕ → List ℕ → ℝ) (H : ℕ → List ℕ → ℕ → ℝ) :
    frobD X.toNumpy Y.toNumpy ≤ orthFloatBound ε X.toNumpy (l.leftMats env) (r.rightMats env) l.rank r.rank.reverse
      (omegaError u X l r (l.absLeftMats env) (r.absRightMats env)) (psiErrorBound u ε X l.rank r (r.absRightMats env)) B H
      fun mu => 4 * (1 + ε) * frobN (G mu) * ((1 + ε) ^ (X.shape.length - 1)
        * sketchedNorm X.toNumpy (r.rightMats env) (mu + 1) (r.rank.reverse.getD mu 0)
        + psiErrorBound u ε X l.rank r (r.absRightMats env) mu) := by
  obtain ⟨h1, h2, h3, h4, S, -, h5, h6⟩ := C109 u hu env ε hε hQ hE X lrank rrank kw Y l r hkw hX hne hd hdist hx p1 p2 h
  have hsh := Tensor.toNumpy_shape hX
  refine (h5 B H).trans (orthFloatBound_mono hε _ _ _ _ _ _ _ (fun mu => ?_) (fun mu _ => ?_) (fun mu hmu => ?_)
    (fun mu _ => frobN_nonneg _) fun mu hmu => ?_)
  · exact mul_nonneg (flErr_nonneg hu _) (Real.sqrt_nonneg _)
  · exact mul_nonneg (flErr_nonneg hu _) (psiSize_nonneg _ _ _ _ _)
  · rw [hsh] at hmu
    exact psiError_le hu hε h1 h2 h3 h4 (by omega)
  · rw [hsh] at hmu
    refine (h6 mu hmu (G mu) (hG mu hmu) (hinv mu hmu) (hsmall mu hmu)).trans
      (mul_le_mul_of_nonneg_left (add_le_add_right (psiError_le hu hε h1 h2 h3 h4 (by omega)) _)
        (mul_nonneg (by positivity) (frobN_nonneg _)))

/-- **C109, ranks.** A result exists only if the left ranks are smaller than the right ones on every bond; supplied DRMs are
used as they are and must have the requested ranks, fresh ones have the trimmed left and the requested right ranks. -/
theorem C109_ranks (u : ℝ) (env : Env ℝ) (X : Tensor ℝ) (lrank rrank : RankArg) (kw : SketchKw ℝ) (Y : TT ℝ) (l r : DRM ℝ)
    (hkw : kw.Good) (hX : X.Valid) (hne : X.NonEmpty) (hd : 2 ≤ X.shape.length)
    (h : FlOrthogonalSketch u env X lrank rrank kw Y l r) :
    (∀ k < X.shape.length - 1, (ranksOf lrank X.shape.length).getD k 0 < (ranksOf rrank X.shape.length).getD k 0) ∧
    (ranksOf lrank X.shape.length).length = X.shape.length - 1 ∧
    (ranksOf rrank X.shape.length).length = X.shape.length - 1 ∧
    (∀ D, kw.left = some D → l = D ∧ lrank = .seq D.rank) ∧
    (∀ D, kw.right = some D → r = D ∧ rrank = .seq D.rank.reverse) ∧
    (kw.left = none → l.rank = trimRanks X.shape (ranksOf lrank X.shape.length)) ∧
    (kw.right = none → r.rank.reverse = ranksOf rrank X.shape.length) := by
  obtain ⟨hrb, hl, hr, lc, rc, om, hlc, hrc, -⟩ := h
  obtain ⟨l1, l2, l3, l4⟩ := leftDRM_inv hkw hd hl
  obtain ⟨r1, r2, r3, r4⟩ := rightDRM_inv hkw hd hr
  have accL := flContr_acc l1 l2 hX hne hlc
  have accR := flContr_acc r1 r2 hX hne hrc
  obtain ⟨n1, n2⟩ := accL.ranks accR
  have la : (ranksOf lrank X.shape.length).length = X.shape.length - 1 := by
    rcases l4 with ⟨-, rfl⟩ | ⟨-, -, -, h, -⟩
    · exact n1
    · omega
  have lb : (ranksOf rrank X.shape.length).length = X.shape.length - 1 := by
    rcases r4 with ⟨-, rfl⟩ | ⟨-, -, -, h, -⟩
    · exact n2
    · omega
  rw [ranksLess_eq hd la lb] at hrb
  injection hrb with hrb
  refine ⟨by simpa using hrb, la, lb, ?_, ?_, ?_, ?_⟩
  · intro D hD
    rcases l4 with ⟨h1, h2⟩ | ⟨h1, -⟩
    · rw [hD] at h1; injection h1 with h1; subst h1; exact ⟨rfl, h2⟩
    · rw [hD] at h1; cases h1
  · intro D hD
    rcases r4 with ⟨h1, h2⟩ | ⟨h1, -⟩
    · rw [hD] at h1; injection h1 with h1; subst h1; exact ⟨rfl, h2⟩
    · rw [hD] at h1; cases h1
  · intro hD
    rcases l4 with ⟨h1, -⟩ | ⟨-, -, -, -, h1⟩
    · rw [hD] at h1; cases h1
    · rw [h1, if_pos rfl]
  · intro hD
    rcases r4 with ⟨h1, -⟩ | ⟨-, -, -, -, h1⟩
    · rw [hD] at h1; cases h1
    · rw [h1]; rfl

/-! ### Examples -/

/-- `C108_apriori` applies. -/
example (u ε : ℝ) (hu : 0 ≤ u) (hε : 0 ≤ ε) :
    ∃ Y, FlHmtSketch u (badEnv ε) (.leaf (.sparse x61)) (.seq [2, 2]) none none (some r8) Y ∧
    ∀ B : ℕ → ℕ → List ℕ → ℝ, frobD x61.toNumpy Y.toNumpy ≤ √ (∑ mu ∈ range 2,
        rangeErrSq x61.toNumpy (r8.rightMats (badEnv ε)) (mu + 1) (r8.rank.reverse.getD mu 0) (B mu))
      + hmtFloatRounding x61.toNumpy (r8.rightMats (badEnv ε)) r8.rank.reverse ε
          (psiErrorBound u ε (.leaf (.sparse x61)) r8.rank.reverse r8 (r8.absRightMats (badEnv ε))) B := by
  have hQ := badEnv_qr hε
  obtain ⟨Y, hY⟩ := C95_success_supplied (badEnv ε) ε hQ (.leaf (.sparse x61)) r8 none none x61_valid x61_distinct
    x61_exact (x61_acc r8_wf rfl rfl) rfl (two_cases (by decide) (by decide))
  have hg : ∀ D, some r8 = some D → D.WF ∧ D.toDRMBase.Full ∧ D.transpose = true :=
    fun D h => by cases h; exact ⟨r8_wf.1, r8_wf.2, rfl⟩
  have p1 : ∀ n ∈ (Tensor.leaf (.sparse x61)).shape, 0 < n := by
    show ∀ n ∈ [2, 3, 2], 0 < n
    decide
  have p2 : ∀ r ∈ r8.rank, 0 < r := by
    show ∀ n ∈ [2, 2], 0 < n
    decide
  have hF := C108_runs u hu (badEnv ε) _ _ _ _ _ _ Y hg x61_valid trivial (by decide) hY
  exact ⟨Y, hF, C108_apriori u hu (badEnv ε) ε hε hQ _ _ _ _ _ Y r8 hg x61_valid trivial (by decide) x61_distinct
    x61_exact p1 p2 rfl hF⟩

/-- `C109_ranks` applies. -/
example (u ε : ℝ) (hu : 0 ≤ u) (hε : 0 ≤ ε) (Y : TT ℝ) (l r : DRM ℝ)
    (h : FlOrthogonalSketch u (badBoth ε env61) (.leaf (.sparse x61)) (.seq [1, 1]) (.seq [2, 2])
      { left := some l8, right := some r8 } Y l r) : l = l8 ∧ r = r8 := by
  obtain ⟨-, -, -, h1, h2, -⟩ := C109_ranks u _ _ _ _ _ Y l r kw8_good x61_valid trivial (by decide) h
  exact ⟨(h1 l8 rfl).1, (h2 r8 rfl).1⟩

end TTS.Props
