import Verif.Proofs.FloatOrthSketch
import Verif.Props.ApproxOrthSketch
import Verif.Props.FloatHmt

/-!
# C109: `orthogonal_sketch` in floating point arithmetic

The program is `FlOrthogonalSketch` (`Model/FloatHmt.lean`), the error bound `orthFloatBound` (`Spec/FloatHmt.lean`).
-/

namespace TTS.Props

open TTS Finset

/-- A DRM that a floating point run contracts with the tensor accepts it. -/
theorem flContr_acc {u : ℝ} {env : Env ℝ} {X : Tensor ℝ} {D : DRM ℝ} (w : D.WF) (f : D.toDRMBase.Full)
    (hX : X.Valid) (hne : X.NonEmpty) {rc : List (List (ND ℝ))} (hc : D.FlContr u env X rc) : D.AcceptsT X := by
  have hsup : ∀ x ∈ X.summands, D.data.supports x = true ∧ D.shape = x.shape := by
    intro x hx
    obtain ⟨k, hk, rfl⟩ := List.mem_iff_getElem.1 hx
    have := List.forall₂_iff_get.1 hc
    exact ⟨(this.2 k hk (this.1 ▸ hk)).1, (this.2 k hk (this.1 ▸ hk)).2.1⟩
  obtain ⟨x, hx⟩ := List.exists_mem_of_ne_nil _ (Tensor.nonEmpty_summands hne)
  have hs : X.shape = D.shape := ((Tensor.valid_summands hX x hx).2).symm.trans (hsup x hx).2.symm
  exact acceptsT_of w f hX hs fun x hx => (hsup x hx).1

/-- The error of one Omega matrix of a floating point run. -/
theorem flOmega_err {u : ℝ} (hu : 0 ≤ u) {env : Env ℝ} {X : Tensor ℝ} {l r : DRM ℝ} {R R' : Mats ℝ} (hX : X.Valid)
    (hdist : X.Distinct) (hl : l.AcceptsT X) (hr : r.AcceptsT X) (hlt : l.transpose = false) (hrt : r.transpose = true)
    (hS : StreamsWith env X r R)
    (hR' : ∀ t ∈ X.summands, ∀ mu < X.shape.length - 1, IsContrR t.abs (mu + 1) (r.rank.reverse.getD mu 0)
      (R' (mu + 1)) ((r.absD env t).getD mu (ND.zeros []))) (hR1 : R' X.shape.length = fun _ _ => 1)
    {lc rc : List (List (ND ℝ))} (hlc : l.FlContr u env X lc) (hrc : r.FlContr u env X rc) {mu : ℕ}
    (hmu : mu < X.shape.length - 1) {P : ND ℝ}
    (hP : FlOmegaT u X mu [l.rank.getD mu 0, r.rank.reverse.getD mu 0] (pick lc mu) (pick rc mu) P) :
    P.shape = [l.rank.getD mu 0, r.rank.reverse.getD mu 0] ∧
    frobD P (core (sketchOf X.shape X.toNumpy.get (l.leftMats env) R l.rank r.rank.reverse).omega mu)
      ≤ omegaError u X l r (l.absLeftMats env) R' mu := by
  obtain ⟨n1, n2⟩ := hl.ranks hr
  have near := flOmega_near hu hl hr hlt hrt hlc hrc hmu hP
  have hs := hS _ hl hlt
  rw [streaming_sum hl hr hlt hrt] at hs
  injection hs with hs
  have ha := absSum_spec (env := env) hX hl hr hlt hdist R' hR' hR1
  rw [hs, ha] at near
  have o1 := (sketchOf_hasShape X.shape X.toNumpy.get (l.leftMats env) R l.rank r.rank.reverse).omega mu hmu
  have o2 := (sketchOf_hasShape X.shape X.abs.toNumpy.get (l.absLeftMats env) R' l.rank r.rank.reverse).omega mu hmu
  have hsh : X.abs.toNumpy.shape = X.shape := by rw [Tensor.toNumpy_shape (Tensor.abs_valid hX), Tensor.abs_shape]
  obtain ⟨hPs, hMs', hent⟩ := near
  refine ⟨hPs.trans o1, (frobD_of_entries (flErr_nonneg hu _) (hMs'.trans hPs.symm) fun i => (hent i).1).trans (le_of_eq ?_)⟩
  unfold omegaError
  congr 1
  rw [← Real.sqrt_sq (frobN_nonneg _), frobN_mat o2]
  unfold midNorm
  congr 1
  refine sum_congr rfl fun c hc => sum_congr rfl fun b hb => ?_
  rw [sketchOf_omega_get (by omega) (by simpa using hc) (by simpa using hb), omegaSpec_right]
  unfold midSketch rightSketch
  rw [hsh]
  rfl

/-- The conclusion of C109 from its parts. -/
theorem flOrth_concl {u ε : ℝ} (hu : 0 ≤ u) (hε : 0 ≤ ε) {env : Env ℝ} (hQ : QRApproxContract env ε)
    (hE : LstsqApproxContract env ε) {X : Tensor ℝ} {lrank rrank : RankArg} {kw : SketchKw ℝ} {Y : TT ℝ} {l r : DRM ℝ}
    (hkw : kw.Good) (hX : X.Valid) (hne : X.NonEmpty) (hd : 2 ≤ X.shape.length) (hdist : X.Distinct)
    (p1 : ∀ n ∈ X.shape, 0 < n) (p2 : ∀ r ∈ l.rank, 0 < r) {R R' : Mats ℝ}
    (hs : r.AcceptsT X → r.transpose = true → (∀ b, R X.shape.length [] b = 1) ∧ (R' X.shape.length = fun _ _ => 1) ∧
      StreamsWith env X r R ∧ ∀ t ∈ X.summands, ∀ mu < X.shape.length - 1,
        IsContrR t.abs (mu + 1) (r.rank.reverse.getD mu 0) (R' (mu + 1)) ((r.absD env t).getD mu (ND.zeros [])))
    (h : FlOrthogonalSketch u env X lrank rrank kw Y l r) :
    Y.Valid ∧ Y.shape = X.shape ∧ Y.rank = l.rank ∧ (∀ C ∈ Y.cores.dropLast, C.NearLeftOrthogonal (2 * ε + ε ^ 2)) ∧
    ∃ S : ℕ → ND ℝ, (∀ mu < X.shape.length - 1, orthStep env (S mu) none = .ok (core Y.cores mu) ∧
      ∃ P O, S mu = solution env P O ∧
        frobD P (core (sketchOf X.shape X.toNumpy.get (frameMats Y) R l.rank r.rank.reverse).psi mu)
          ≤ psiError u X l.rank r R' Y.cores mu ∧
        frobD O (core (sketchOf X.shape X.toNumpy.get (l.leftMats env) R l.rank r.rank.reverse).omega mu)
          ≤ omegaError u X l r (l.absLeftMats env) R' mu) ∧
    (∀ (B : ℕ → ℕ → List ℕ → ℝ) (H : ℕ → List ℕ → ℕ → ℝ), frobD X.toNumpy Y.toNumpy
      ≤ orthFloatBound ε X.toNumpy (l.leftMats env) R l.rank r.rank.reverse
          (omegaError u X l r (l.absLeftMats env) R') (psiError u X l.rank r R' Y.cores) B H fun mu => frobN (S mu)) ∧
    ∀ mu < X.shape.length - 1, ∀ G : ND ℝ, G.shape = [r.rank.reverse.getD mu 0, l.rank.getD mu 0] →
      (∀ a < l.rank.getD mu 0, ∀ c < l.rank.getD mu 0, ∑ b ∈ range (r.rank.reverse.getD mu 0),
        midSketch X.toNumpy (l.leftMats env) R (mu + 1) a b * G.get [b, c] = if a = c then 1 else 0) →
      frobN G * (ε * midNorm X.toNumpy (l.leftMats env) R (mu + 1) (l.rank.getD mu 0) (r.rank.reverse.getD mu 0)
        + (1 + ε) * omegaError u X l r (l.absLeftMats env) R' mu) ≤ 1 / 2 →
      frobN (S mu) ≤ 4 * (1 + ε) * frobN G * ((1 + ε) ^ (X.shape.length - 1)
        * sketchedNorm X.toNumpy R (mu + 1) (r.rank.reverse.getD mu 0) + psiError u X l.rank r R' Y.cores mu) := by
  obtain ⟨-, hl, hr, lc, rc, om, hlc, hrc, hom, hf⟩ := h
  obtain ⟨l1, l2, l3, -⟩ := leftDRM_inv hkw hd hl
  obtain ⟨r1, r2, r3, -⟩ := rightDRM_inv hkw hd hr
  have accL := flContr_acc l1 l2 hX hne hlc
  have accR := flContr_acc r1 r2 hX hne hrc
  obtain ⟨n1, n2⟩ := accL.ranks accR
  obtain ⟨s1, s2, s3, s4⟩ := hs accR r3
  have homs : ∀ mu < X.shape.length - 1, (core om mu).shape = [l.rank.getD mu 0, r.rank.reverse.getD mu 0] ∧
      frobD (core om mu) (core (sketchOf X.shape X.toNumpy.get (l.leftMats env) R l.rank r.rank.reverse).omega mu)
        ≤ omegaError u X l r (l.absLeftMats env) R' mu := by
    intro mu hmu
    have hlen := hom.length_eq
    have := (List.forall₂_iff_get.1 hom).2 mu (by simpa using hmu) (by rw [← hlen]; simpa using hmu)
    simp only [List.get_eq_getElem, List.getElem_range] at this
    have k := flOmega_err hu hX hdist accL accR l3 r3 s3 s4 s2 hlc hrc hmu this
    unfold core at k ⊢
    rw [getD_eq (l := om) (by rw [← hlen]; simpa using hmu)]
    exact k
  have hrun := fl_hmt_run hu hX hd hdist accR r3 s3 s4 s2 n1 n2 (om := some om) (fun mu hmu => (homs mu hmu).1) hrc _ le_rfl _ hf
  have hP0 : ∀ mu, 0 ≤ psiError u X l.rank r R' Y.cores mu := fun mu =>
    mul_nonneg (flErr_nonneg hu _) (psiSize_nonneg _ _ _ _ _)
  have hO0 : ∀ mu, 0 ≤ omegaError u X l r (l.absLeftMats env) R' mu := fun mu =>
    mul_nonneg (flErr_nonneg hu _) (Real.sqrt_nonneg _)
  have hpsi : ∀ mu < X.shape.length - 1, core (sketchOf X.shape X.toNumpy.get (frameMats Y) R l.rank r.rank.reverse).psi mu
      = psiOf X.shape X.toNumpy.get R l.rank r.rank.reverse Y.cores mu := by
    intro mu hmu
    unfold core
    show ((List.range X.shape.length).map _).getD mu _ = _
    rw [getD_map_range _ _ _ _ (by omega)]
    rfl
  have hsh := Tensor.toNumpy_shape hX
  obtain ⟨c1, c2, c3, c4⟩ := hrun
  rw [← hsh] at c1 c2 c3 c4 n1 n2 hd p1 s1 homs hpsi ⊢
  have hC : Cores Y.cores (fun k => (1 :: l.rank ++ [1]).getD k 0) fun k => X.toNumpy.shape.getD k 0 :=
    fun k hk => c2 k (by omega)
  obtain ⟨w1, w2, w3⟩ := cores_tt hC (by omega) c1 n1
  obtain ⟨k1, S, k2, k3, k4⟩ := orth_sketch_approx_fl hε hQ hE _ _ hO0 hP0 c1 hC homs
    (fun mu hmu => c3 mu (by omega) hmu) (c4 (X.toNumpy.shape.length - 1) (by omega) (by omega)) hd n1 n2 s1 p1 p2
  refine ⟨w1, w2, w3, hmt_near hε hC c1 k1, S, fun mu hmu => ?_, k3, k4⟩
  obtain ⟨e1, P, e2, e3⟩ := k2 mu hmu
  exact ⟨e1, P, core om mu, e3, by rw [hpsi mu hmu]; exact e2, (homs mu hmu).2⟩

/-- **C109.** Whatever the order of the operations and the individual rounding errors, if every QR factorisation and every least
squares solve has relative error at most `ε`: `orthogonal_sketch` returns a tensor train of the tensor's shape with the ranks
of the left DRM; all cores but the last are left-orthogonal up to `2ε + ε²`; core `mu` is the Q factor of a solution `S mu` of the
least squares problem whose right hand side and matrix are the sketches of the tensor up to `psiError` and `omegaError`; the
distance to the tensor is at most `orthFloatBound`, for every choice of the coefficients `B` and `H`; and the solutions are
bounded independently of the run if `Omega[mu]` has a right inverse that is not too large. -/
theorem C109 (u : ℝ) (hu : 0 ≤ u) (env : Env ℝ) (ε : ℝ) (hε : 0 ≤ ε) (hQ : QRApproxContract env ε)
    (hE : LstsqApproxContract env ε) (X : Tensor ℝ) (lrank rrank : RankArg) (kw : SketchKw ℝ) (Y : TT ℝ) (l r : DRM ℝ)
    (hkw : kw.Good) (hX : X.Valid) (hne : X.NonEmpty) (hd : 2 ≤ X.shape.length) (hdist : X.Distinct)
    (hx : ∀ t ∈ X.summands, t.RightExact) (p1 : ∀ n ∈ X.shape, 0 < n) (p2 : ∀ r ∈ l.rank, 0 < r)
    (h : FlOrthogonalSketch u env X lrank rrank kw Y l r) :
    Y.Valid ∧ Y.shape = X.shape ∧ Y.rank = l.rank ∧ (∀ C ∈ Y.cores.dropLast, C.NearLeftOrthogonal (2 * ε + ε ^ 2)) ∧
    ∃ S : ℕ → ND ℝ, (∀ mu < X.shape.length - 1, orthStep env (S mu) none = .ok (core Y.cores mu) ∧
      ∃ P O, S mu = solution env P O ∧
        frobD P (core (sketchOf X.shape X.toNumpy.get (frameMats Y) (r.rightMats env) l.rank r.rank.reverse).psi mu)
          ≤ psiError u X l.rank r (r.absRightMats env) Y.cores mu ∧
        frobD O (core (sketchOf X.shape X.toNumpy.get (l.leftMats env) (r.rightMats env) l.rank r.rank.reverse).omega mu)
          ≤ omegaError u X l r (l.absLeftMats env) (r.absRightMats env) mu) ∧
    (∀ (B : ℕ → ℕ → List ℕ → ℝ) (H : ℕ → List ℕ → ℕ → ℝ), frobD X.toNumpy Y.toNumpy
      ≤ orthFloatBound ε X.toNumpy (l.leftMats env) (r.rightMats env) l.rank r.rank.reverse
          (omegaError u X l r (l.absLeftMats env) (r.absRightMats env))
          (psiError u X l.rank r (r.absRightMats env) Y.cores) B H fun mu => frobN (S mu)) ∧
    ∀ mu < X.shape.length - 1, ∀ G : ND ℝ, G.shape = [r.rank.reverse.getD mu 0, l.rank.getD mu 0] →
      (∀ a < l.rank.getD mu 0, ∀ c < l.rank.getD mu 0, ∑ b ∈ range (r.rank.reverse.getD mu 0),
        midSketch X.toNumpy (l.leftMats env) (r.rightMats env) (mu + 1) a b * G.get [b, c] = if a = c then 1 else 0) →
      frobN G * (ε * midNorm X.toNumpy (l.leftMats env) (r.rightMats env) (mu + 1) (l.rank.getD mu 0)
          (r.rank.reverse.getD mu 0)
        + (1 + ε) * omegaError u X l r (l.absLeftMats env) (r.absRightMats env) mu) ≤ 1 / 2 →
      frobN (S mu) ≤ 4 * (1 + ε) * frobN G * ((1 + ε) ^ (X.shape.length - 1)
        * sketchedNorm X.toNumpy (r.rightMats env) (mu + 1) (r.rank.reverse.getD mu 0)
        + psiError u X l.rank r (r.absRightMats env) Y.cores mu) := by
  refine flOrth_concl hu hε hQ hE hkw hX hne hd hdist p1 p2 (fun acc dir => ?_) h
  have hs := acc.shape
  refine ⟨fun b => by rw [rightMats_last env (by rw [hs])], by funext q b; simp [DRM.absRightMats, hs],
    streamsWith_exact hX acc dir hdist hx, fun t ht => ?_⟩
  have e : t.shape = X.shape := by rw [(acc.each t ht).shape, ← acc.shape]
  rw [← e]
  exact abs_right_spec (acc.each t ht) dir (hx t ht)

/-- **C109, dense arrays** with any number of modes. -/
theorem C109_dense (u : ℝ) (hu : 0 ≤ u) (env : Env ℝ) (ε : ℝ) (hε : 0 ≤ ε) (hQ : QRApproxContract env ε)
    (hE : LstsqApproxContract env ε) (X : ND ℝ) (lrank rrank : RankArg) (kw : SketchKw ℝ) (Y : TT ℝ) (l r : DRM ℝ)
    (hkw : kw.Good) (hd : 2 ≤ X.shape.length) (p1 : ∀ n ∈ X.shape, 0 < n) (p2 : ∀ r ∈ l.rank, 0 < r)
    (h : FlOrthogonalSketch u env (.leaf (.dense X)) lrank rrank kw Y l r) :
    Y.Valid ∧ Y.shape = X.shape ∧ Y.rank = l.rank ∧ (∀ C ∈ Y.cores.dropLast, C.NearLeftOrthogonal (2 * ε + ε ^ 2)) ∧
    ∃ S : ℕ → ND ℝ, (∀ mu < X.shape.length - 1, orthStep env (S mu) none = .ok (core Y.cores mu) ∧
      ∃ P O, S mu = solution env P O ∧
        frobD P (core (sketchOf X.shape X.get (frameMats Y) (r.rightMatsDense env) l.rank r.rank.reverse).psi mu)
          ≤ psiError u (.leaf (.dense X)) l.rank r (r.absRightMatsDense env) Y.cores mu ∧
        frobD O (core (sketchOf X.shape X.get (l.leftMats env) (r.rightMatsDense env) l.rank r.rank.reverse).omega mu)
          ≤ omegaError u (.leaf (.dense X)) l r (l.absLeftMats env) (r.absRightMatsDense env) mu) ∧
    (∀ (B : ℕ → ℕ → List ℕ → ℝ) (H : ℕ → List ℕ → ℕ → ℝ), frobD X Y.toNumpy
      ≤ orthFloatBound ε X (l.leftMats env) (r.rightMatsDense env) l.rank r.rank.reverse
          (omegaError u (.leaf (.dense X)) l r (l.absLeftMats env) (r.absRightMatsDense env))
          (psiError u (.leaf (.dense X)) l.rank r (r.absRightMatsDense env) Y.cores) B H fun mu => frobN (S mu)) ∧
    ∀ mu < X.shape.length - 1, ∀ G : ND ℝ, G.shape = [r.rank.reverse.getD mu 0, l.rank.getD mu 0] →
      (∀ a < l.rank.getD mu 0, ∀ c < l.rank.getD mu 0, ∑ b ∈ range (r.rank.reverse.getD mu 0),
        midSketch X (l.leftMats env) (r.rightMatsDense env) (mu + 1) a b * G.get [b, c] = if a = c then 1 else 0) →
      frobN G * (ε * midNorm X (l.leftMats env) (r.rightMatsDense env) (mu + 1) (l.rank.getD mu 0)
          (r.rank.reverse.getD mu 0)
        + (1 + ε) * omegaError u (.leaf (.dense X)) l r (l.absLeftMats env) (r.absRightMatsDense env) mu) ≤ 1 / 2 →
      frobN (S mu) ≤ 4 * (1 + ε) * frobN G * ((1 + ε) ^ (X.shape.length - 1)
        * sketchedNorm X (r.rightMatsDense env) (mu + 1) (r.rank.reverse.getD mu 0)
        + psiError u (.leaf (.dense X)) l.rank r (r.absRightMatsDense env) Y.cores mu) := by
  refine flOrth_concl (X := .leaf (.dense X)) hu hε hQ hE hkw trivial trivial hd trivial p1 p2 (fun acc dir => ?_) h
  have hs : X.shape = r.shape := acc.shape
  refine ⟨fun b => by rw [show (Tensor.leaf (.dense X)).shape.length = X.shape.length from rfl,
      rightMatsDense_last env (by rw [hs])],
    by funext q b; simp [DRM.absRightMatsDense, ← hs, Tensor.shape, Leaf.shape], streamsWith_dense acc dir, fun t ht => ?_⟩
  have e : t = .dense X := by simpa [Tensor.summands] using ht
  subst e
  exact abs_right_spec_dense acc.leaf dir

/-- **C109, runs exist.** The result of exact arithmetic is one of the results allowed in floating point arithmetic, so by
`C97_success` and `C97_success_supplied` the hypotheses of C109 are met whenever the ranks fit. -/
theorem C109_runs (u : ℝ) (hu : 0 ≤ u) (env : Env ℝ) (X : Tensor ℝ) (lrank rrank : RankArg) (kw : SketchKw ℝ) (Y : TT ℝ)
    (l r : DRM ℝ) (h : orthogonalSketch env X lrank rrank kw = .ok (Y, l, r)) :
    FlOrthogonalSketch u env X lrank rrank kw Y l r := by
  unfold orthogonalSketch at h
  obtain ⟨rb, hrb, h⟩ := andThen_ok h
  split at h
  · cases h
  next hb =>
  obtain ⟨l, hl, h⟩ := andThen_ok h
  obtain ⟨r, hr, h⟩ := andThen_ok h
  obtain ⟨s, hs, h⟩ := andThen_ok h
  injection h with h
  injection h with h1 h2
  injection h2 with h2 h3
  subst h1 h2 h3
  have hb : rb = true := by simpa using hb
  subst hb
  unfold generalSketch at hs
  obtain ⟨lc, c1, hs⟩ := andThen_ok hs
  obtain ⟨rc, c2, hs⟩ := andThen_ok hs
  obtain ⟨om, c3, hs⟩ := andThen_ok hs
  obtain ⟨psi, c4, hs⟩ := andThen_ok hs
  injection hs with hs
  subst hs
  exact ⟨hrb, hl, hr, lc, rc, om, contr_exact hu c1, contr_exact hu c2,
    (mapM_ok_forall₂ c3).imp fun _ _ h => omegaT_exact hu h, orth_fold_exact hu _ _ _ c4⟩

/-- The bound of C109 without rounding errors is that of C97. -/
theorem orthFloatBound_exact (A : ND ℝ) (L R : Mats ℝ) (lr rr : List ℕ) (B : ℕ → ℕ → List ℕ → ℝ)
    (H : ℕ → List ℕ → ℕ → ℝ) (c : ℕ → ℝ) (ε : ℝ) :
    orthFloatBound ε A L R lr rr (fun _ => 0) (fun _ => 0) B H c = orthBound ε A L R lr rr B H c := by
  unfold orthFloatBound orthBound orthFloatBond orthBond
  simp

theorem omegaError_zero (X : Tensor ℝ) (l r : DRM ℝ) (L R : Mats ℝ) (mu : ℕ) : omegaError 0 X l r L R mu = 0 := by
  unfold omegaError flErr; simp

/-! ### Example: the sparse tensor `x61`, as for C97, with rounding -/

example (u ε : ℝ) (hu : 0 ≤ u) (hε : 0 ≤ ε) :
    ∃ Y, FlOrthogonalSketch u (badBoth ε env61) (.leaf (.sparse x61)) (.seq [1, 1]) (.seq [2, 2])
      { left := some l8, right := some r8 } Y l8 r8 ∧
    (∀ C ∈ Y.cores.dropLast, C.NearLeftOrthogonal (2 * ε + ε ^ 2)) ∧
    ∃ c : ℕ → ℝ, ∀ (B : ℕ → ℕ → List ℕ → ℝ) (H : ℕ → List ℕ → ℕ → ℝ), frobD x61.toNumpy Y.toNumpy
      ≤ orthFloatBound ε x61.toNumpy (l8.leftMats env61) (r8.rightMats env61) [1, 1] [2, 2]
        (omegaError u (.leaf (.sparse x61)) l8 r8 (l8.absLeftMats env61) (r8.absRightMats env61))
        (psiError u (.leaf (.sparse x61)) [1, 1] r8 (r8.absRightMats env61) Y.cores) B H c := by
  have hQ := badBoth_qr env61 hε
  have hE := badBoth_lstsq env61 hε
  obtain ⟨Y, hY⟩ := C97_success_supplied (badBoth ε env61) ε hQ hE (.leaf (.sparse x61)) l8 r8 none none none
    x61_valid x61_distinct x61_exact (x61_acc l8_wf rfl rfl) (x61_acc r8_wf rfl rfl) rfl rfl
    (two_cases (by decide) (by decide)) (two_cases (by decide) (by decide))
  have hF := C109_runs u hu _ _ _ _ _ _ _ _ hY
  obtain ⟨-, -, -, h4, S, -, h5, -⟩ := C109 u hu (badBoth ε env61) ε hε hQ hE (.leaf (.sparse x61)) _ _ _ Y l8 r8 kw8_good
    x61_valid trivial (by decide) x61_distinct x61_exact (by show ∀ n ∈ [2, 3, 2], 0 < n; decide)
    (by show ∀ n ∈ [1, 1], 0 < n; decide) hF
  exact ⟨Y, hF, h4, _, h5⟩

end TTS.Props
