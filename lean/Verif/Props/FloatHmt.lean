import Verif.Proofs.FloatHmt
import Verif.Props.ApproxHmt
import Verif.Props.FloatSketch

/-!
# C108: `hmt_sketch` in floating point arithmetic

The program is `FlHmtSketch` (`Model/FloatHmt.lean`), the error bound `hmtFloatBound` (`Spec/FloatHmt.lean`).
-/

namespace TTS.Props

open TTS Finset

/-- The DRM of a floating point run accepts the tensor. -/
theorem flHmt_acc {u : ℝ} {env : Env ℝ} {X : Tensor ℝ} {rank : RankArg} {s : ℕ} {kind : Option DRMKind}
    {drm : Option (DRM ℝ)} {D : DRM ℝ} (hg : ∀ D, drm = some D → D.WF ∧ D.toDRMBase.Full ∧ D.transpose = true)
    (hX : X.Valid) (hne : X.NonEmpty) (hd : 2 ≤ X.shape.length)
    (hD : hmtDRM env X.shape rank s kind drm = .ok D) {rc : List (List (ND ℝ))} (hc : D.FlContr u env X rc) :
    D.AcceptsT X ∧ D.transpose = true ∧ D.rank.reverse.length = X.shape.length - 1 := by
  obtain ⟨w, f, t, -⟩ := hmtDRM_inv hg hd hD
  have hsup : ∀ x ∈ X.summands, D.data.supports x = true ∧ D.shape = x.shape := by
    intro x hx
    obtain ⟨k, hk, rfl⟩ := List.mem_iff_getElem.1 hx
    have := List.forall₂_iff_get.1 hc
    exact ⟨(this.2 k hk (this.1 ▸ hk)).1, (this.2 k hk (this.1 ▸ hk)).2.1⟩
  have hs : X.shape = D.shape := by
    have hne' : X.summands ≠ [] := by
      cases X with
      | leaf x => simp [Tensor.summands]
      | sum x => exact hne
    obtain ⟨x, hx⟩ := List.exists_mem_of_ne_nil _ hne'
    exact ((Tensor.valid_summands hX x hx).2).symm.trans (hsup x hx).2.symm
  have hacc := acceptsT_of w f hX hs fun x hx => (hsup x hx).1
  refine ⟨hacc, t, ?_⟩
  rw [List.length_reverse, hs]
  exact w.rankLen

/-- The conclusion of C108 from its parts. -/
theorem flHmt_concl {u ε : ℝ} (hu : 0 ≤ u) (hε : 0 ≤ ε) {env : Env ℝ} (hQ : QRApproxContract env ε) {X : Tensor ℝ}
    {rank : RankArg} {seed : Option ℕ} {kind : Option DRMKind} {drm : Option (DRM ℝ)} {Y : TT ℝ} {D : DRM ℝ}
    (hg : ∀ D, drm = some D → D.WF ∧ D.toDRMBase.Full ∧ D.transpose = true) (hX : X.Valid) (hne : X.NonEmpty)
    (hd : 2 ≤ X.shape.length) (hdist : X.Distinct) (p1 : ∀ n ∈ X.shape, 0 < n) (p2 : ∀ r ∈ D.rank, 0 < r)
    (hD : hmtDRM env X.shape rank (seed.getD (env.freshSeed % 2 ^ 32)) kind drm = .ok D)
    {R R' : Mats ℝ} (hR0 : ∀ b, R X.shape.length [] b = 1) (hR1 : R' X.shape.length = fun _ _ => 1)
    (hS : D.AcceptsT X → D.transpose = true → StreamsWith env X D R)
    (hR' : D.AcceptsT X → D.transpose = true → ∀ t ∈ X.summands, ∀ mu < X.shape.length - 1,
      IsContrR t.abs (mu + 1) (D.rank.reverse.getD mu 0) (R' (mu + 1)) ((D.absD env t).getD mu (ND.zeros [])))
    (h : FlHmtSketch u env X rank seed kind drm Y) :
    Y.Valid ∧ Y.shape = X.shape ∧ Y.rank = D.rank.reverse ∧
    (∀ C ∈ Y.cores.dropLast, C.NearLeftOrthogonal (2 * ε + ε ^ 2)) ∧
    ∀ B : ℕ → ℕ → List ℕ → ℝ, frobD X.toNumpy Y.toNumpy ≤ √ (∑ mu ∈ range (X.shape.length - 1),
        rangeErrSq X.toNumpy R (mu + 1) (D.rank.reverse.getD mu 0) (B mu))
      + hmtFloatRounding X.toNumpy R D.rank.reverse ε (psiError u X D.rank.reverse D R' Y.cores) B := by
  obtain ⟨D', rc, h0, hrc, hf⟩ := h
  rw [hD] at h0
  injection h0 with h0
  subst h0
  obtain ⟨acc, dir, n1⟩ := flHmt_acc hg hX hne hd hD hrc
  have hr := fl_hmt_run hu hX hd hdist acc dir (hS acc dir) (hR' acc dir) hR1 n1 n1 (om := none) rfl hrc _ le_rfl _ hf
  have hE0 : ∀ mu, 0 ≤ psiError u X D.rank.reverse D R' Y.cores mu := fun mu =>
    mul_nonneg (flErr_nonneg hu _) (psiSize_nonneg _ _ _ _ _)
  have hsh := Tensor.toNumpy_shape hX
  obtain ⟨c1, c2, c3, c4⟩ := hr
  rw [← hsh] at c1 c2 c3 c4 n1 hd p1 hR0 ⊢
  have hC : Cores Y.cores (fun k => (1 :: D.rank.reverse ++ [1]).getD k 0) fun k => X.toNumpy.shape.getD k 0 :=
    fun k hk => c2 k (by omega)
  obtain ⟨w1, w2, w3⟩ := cores_tt hC (by omega) c1 n1
  have key := hmt_approx_fl hε hQ _ hE0 c1 hC (fun mu hmu => c3 mu (by omega) hmu) (c4 (X.toNumpy.shape.length - 1) (by omega) (by omega)) hd n1 hR0 p1
    (fun _ hr => p2 _ (by simpa using hr))
  refine ⟨w1, w2, w3, hmt_near hε hC c1 (key fun _ _ _ => 0).1, fun B => ?_⟩
  have := (key B).2
  unfold hmtFloatRounding
  linarith

/-- **C108.** Whatever the order of the operations and the individual rounding errors, if every QR factorisation has relative
error at most `ε`: `hmt_sketch` returns a tensor train of the tensor's shape with the ranks of the DRM, all cores but the last
are left-orthogonal up to `2ε + ε²`, and the error is at most that of the exact randomised range finder plus
`hmtFloatRounding`, in which the Psi cores have the errors `psiError`. -/
theorem C108 (u : ℝ) (hu : 0 ≤ u) (env : Env ℝ) (ε : ℝ) (hε : 0 ≤ ε) (hQ : QRApproxContract env ε) (X : Tensor ℝ)
    (rank : RankArg) (seed : Option ℕ) (kind : Option DRMKind) (drm : Option (DRM ℝ)) (Y : TT ℝ) (D : DRM ℝ)
    (hg : ∀ D, drm = some D → D.WF ∧ D.toDRMBase.Full ∧ D.transpose = true) (hX : X.Valid) (hne : X.NonEmpty)
    (hd : 2 ≤ X.shape.length) (hdist : X.Distinct) (hx : ∀ t ∈ X.summands, t.RightExact)
    (p1 : ∀ n ∈ X.shape, 0 < n) (p2 : ∀ r ∈ D.rank, 0 < r)
    (hD : hmtDRM env X.shape rank (seed.getD (env.freshSeed % 2 ^ 32)) kind drm = .ok D)
    (h : FlHmtSketch u env X rank seed kind drm Y) :
    Y.Valid ∧ Y.shape = X.shape ∧ Y.rank = D.rank.reverse ∧
    (∀ C ∈ Y.cores.dropLast, C.NearLeftOrthogonal (2 * ε + ε ^ 2)) ∧
    ∀ B : ℕ → ℕ → List ℕ → ℝ, frobD X.toNumpy Y.toNumpy ≤ √ (∑ mu ∈ range (X.shape.length - 1),
        rangeErrSq X.toNumpy (D.rightMats env) (mu + 1) (D.rank.reverse.getD mu 0) (B mu))
      + hmtFloatRounding X.toNumpy (D.rightMats env) D.rank.reverse ε
          (psiError u X D.rank.reverse D (D.absRightMats env) Y.cores) B := by
  have hs : X.shape = D.shape := by
    obtain ⟨D', rc, h0, hrc, -⟩ := h
    rw [hD] at h0
    injection h0 with h0
    subst h0
    exact (flHmt_acc hg hX hne hd hD hrc).1.shape
  refine flHmt_concl hu hε hQ hg hX hne hd hdist p1 p2 hD (fun b => by rw [rightMats_last env (by rw [hs])])
    (by funext q b; simp [DRM.absRightMats, hs]) (fun acc dir => streamsWith_exact hX acc dir hdist hx)
    (fun acc dir t ht => ?_) h
  have e : t.shape = X.shape := by rw [(acc.each t ht).shape, ← acc.shape]
  rw [← e]
  exact abs_right_spec (acc.each t ht) dir (hx t ht)

/-- **C108, dense arrays** with any number of modes. -/
theorem C108_dense (u : ℝ) (hu : 0 ≤ u) (env : Env ℝ) (ε : ℝ) (hε : 0 ≤ ε) (hQ : QRApproxContract env ε) (X : ND ℝ)
    (rank : RankArg) (seed : Option ℕ) (kind : Option DRMKind) (drm : Option (DRM ℝ)) (Y : TT ℝ) (D : DRM ℝ)
    (hg : ∀ D, drm = some D → D.WF ∧ D.toDRMBase.Full ∧ D.transpose = true)
    (hd : 2 ≤ X.shape.length) (p1 : ∀ n ∈ X.shape, 0 < n) (p2 : ∀ r ∈ D.rank, 0 < r)
    (hD : hmtDRM env X.shape rank (seed.getD (env.freshSeed % 2 ^ 32)) kind drm = .ok D)
    (h : FlHmtSketch u env (.leaf (.dense X)) rank seed kind drm Y) :
    Y.Valid ∧ Y.shape = X.shape ∧ Y.rank = D.rank.reverse ∧
    (∀ C ∈ Y.cores.dropLast, C.NearLeftOrthogonal (2 * ε + ε ^ 2)) ∧
    ∀ B : ℕ → ℕ → List ℕ → ℝ, frobD X Y.toNumpy ≤ √ (∑ mu ∈ range (X.shape.length - 1),
        rangeErrSq X (D.rightMatsDense env) (mu + 1) (D.rank.reverse.getD mu 0) (B mu))
      + hmtFloatRounding X (D.rightMatsDense env) D.rank.reverse ε
          (psiError u (.leaf (.dense X)) D.rank.reverse D (D.absRightMatsDense env) Y.cores) B := by
  have hs : X.shape = D.shape := by
    obtain ⟨D', rc, h0, hrc, -⟩ := h
    have h0 : hmtDRM env X.shape rank (seed.getD (env.freshSeed % 2 ^ 32)) kind drm = .ok D' := h0
    rw [hD] at h0
    injection h0 with h0
    subst h0
    exact (flHmt_acc (X := .leaf (.dense X)) hg trivial trivial hd hD hrc).1.shape
  refine flHmt_concl (X := .leaf (.dense X)) hu hε hQ hg trivial trivial hd trivial p1 p2 hD
    (R := D.rightMatsDense env) (R' := D.absRightMatsDense env)
    (fun b => by rw [show (Tensor.leaf (.dense X)).shape.length = X.shape.length from rfl, rightMatsDense_last env (by rw [hs])])
    (by funext q b; simp [DRM.absRightMatsDense, ← hs, Tensor.shape, Leaf.shape]) (fun acc dir => streamsWith_dense acc dir)
    (fun acc dir t ht => ?_) h
  have e : t = .dense X := by simpa [Tensor.summands] using ht
  subst e
  exact abs_right_spec_dense acc.leaf dir

/-- **C108, recovery up to rounding.** If the coefficient matrices `B` give the unfoldings back exactly, only the rounding
terms remain. -/
theorem C108_recovery (u : ℝ) (hu : 0 ≤ u) (env : Env ℝ) (ε : ℝ) (hε : 0 ≤ ε) (hQ : QRApproxContract env ε) (X : Tensor ℝ)
    (rank : RankArg) (seed : Option ℕ) (kind : Option DRMKind) (drm : Option (DRM ℝ)) (Y : TT ℝ) (D : DRM ℝ)
    (hg : ∀ D, drm = some D → D.WF ∧ D.toDRMBase.Full ∧ D.transpose = true) (hX : X.Valid) (hne : X.NonEmpty)
    (hd : 2 ≤ X.shape.length) (hdist : X.Distinct) (hx : ∀ t ∈ X.summands, t.RightExact)
    (p1 : ∀ n ∈ X.shape, 0 < n) (p2 : ∀ r ∈ D.rank, 0 < r)
    (hD : hmtDRM env X.shape rank (seed.getD (env.freshSeed % 2 ^ 32)) kind drm = .ok D)
    (h : FlHmtSketch u env X rank seed kind drm Y) (B : ℕ → ℕ → List ℕ → ℝ)
    (hB : ∀ mu < X.shape.length - 1,
      rangeErrSq X.toNumpy (D.rightMats env) (mu + 1) (D.rank.reverse.getD mu 0) (B mu) = 0) :
    frobD X.toNumpy Y.toNumpy ≤ hmtFloatRounding X.toNumpy (D.rightMats env) D.rank.reverse ε
      (psiError u X D.rank.reverse D (D.absRightMats env) Y.cores) B := by
  have h1 := (C108 u hu env ε hε hQ X rank seed kind drm Y D hg hX hne hd hdist hx p1 p2 hD h).2.2.2.2 B
  rw [sum_eq_zero fun mu hmu => hB mu (by simpa using hmu), Real.sqrt_zero, zero_add] at h1
  exact h1

theorem orth_fold_exact {u : ℝ} (hu : 0 ≤ u) {env : Env ℝ} {X : Tensor ℝ} {lr rr : List ℕ} {om : Option (List (ND ℝ))}
    {rc : List (List (ND ℝ))} : ∀ (l : List ℕ) (cs out : List (ND ℝ)), l.foldlM (psiOrthStep env X lr rr om rc) cs = .ok out →
      flFold (fun cores mu cores' => FlOrthStep u env X lr rr om rc cores mu cores') cs l out
  | [], cs, out, h => by
    have h : (Except.ok cs : Except PyErr _) = .ok out := h
    injection h with h
    exact h.symm
  | mu :: l, cs, out, h => by
    rw [List.foldlM_cons] at h
    match h1 : psiOrthStep env X lr rr om rc cs mu with
    | .error e => rw [h1] at h; cases h
    | .ok cs1 =>
      rw [h1] at h
      refine ⟨cs1, ?_, orth_fold_exact hu l cs1 out h⟩
      unfold psiOrthStep at h1
      match h2 : (if 0 < mu then (orthDRM lr X.shape cs).contr env X else .ok []) with
      | .error e => rw [h2] at h1; cases h1
      | .ok lc =>
        rw [h2] at h1
        dsimp only at h1
        match h3 : psiAt X lr rr rc mu (pick lc (mu - 1)) with
        | .error e => rw [h3] at h1; cases h1
        | .ok P =>
          rw [h3] at h1
          dsimp only at h1
          refine ⟨lc, P, fun h0 => ?_, psiT_exact hu h3, ?_⟩
          · rw [if_pos h0] at h2
            exact contr_exact hu h2
          · by_cases hlt : mu < X.shape.length - 1
            · rw [if_pos hlt] at h1 ⊢
              match h4 : orthStep env P (om.map fun l => l.getD mu (ND.zeros [])) with
              | .error e => rw [h4] at h1; cases h1
              | .ok Q =>
                rw [h4] at h1
                injection h1 with h1
                exact ⟨Q, h4, h1.symm⟩
            · rw [if_neg hlt] at h1 ⊢
              injection h1 with h1
              exact h1.symm

/-- **C108, runs exist.** The result of exact arithmetic is one of the results allowed in floating point arithmetic, so by
`C95_success` the hypotheses of C108 are met whenever the ranks fit. -/
theorem C108_runs (u : ℝ) (hu : 0 ≤ u) (env : Env ℝ) (X : Tensor ℝ) (rank : RankArg)
    (seed : Option ℕ) (kind : Option DRMKind) (drm : Option (DRM ℝ)) (b : Bool) (Y : TT ℝ)
    (hg : ∀ D, drm = some D → D.WF ∧ D.toDRMBase.Full ∧ D.transpose = true) (hX : X.Valid) (hne : X.NonEmpty)
    (hd : 2 ≤ X.shape.length) (h : hmtSketch env X rank seed kind drm b = .ok Y) :
    FlHmtSketch u env X rank seed kind drm Y := by
  obtain ⟨-, D, h0, hO⟩ := hmt_inv hg hX hne hd h
  obtain ⟨rc, h1, h2⟩ := hO.run
  exact ⟨D, rc, h0, contr_exact hu h1, orth_fold_exact hu _ _ _ h2⟩

/-- Without errors `C108` is `C95`. -/
theorem hmtFloatRounding_zero (A : ND ℝ) (R : Mats ℝ) (ranks : List ℕ) (B : ℕ → ℕ → List ℕ → ℝ) :
    hmtFloatRounding A R ranks 0 (fun _ => 0) B = 0 := by
  unfold hmtFloatRounding; simp

theorem psiError_zero (X : Tensor ℝ) (lr : List ℕ) (D : DRM ℝ) (R : Mats ℝ) (cores : List (ND ℝ)) (mu : ℕ) :
    psiError 0 X lr D R cores mu = 0 := by
  unfold psiError flErr; simp

/-! ### Example: the sparse tensor `x61`, as for C95, with rounding -/

example (u ε : ℝ) (hu : 0 ≤ u) (hε : 0 ≤ ε) :
    ∃ Y, FlHmtSketch u (badEnv ε) (.leaf (.sparse x61)) (.seq [2, 2]) none none (some r8) Y ∧
    (∀ C ∈ Y.cores.dropLast, C.NearLeftOrthogonal (2 * ε + ε ^ 2)) ∧
    ∀ B : ℕ → ℕ → List ℕ → ℝ, frobD x61.toNumpy Y.toNumpy ≤ √ (∑ mu ∈ range 2,
        rangeErrSq x61.toNumpy (r8.rightMats (badEnv ε)) (mu + 1) (r8.rank.reverse.getD mu 0) (B mu))
      + hmtFloatRounding x61.toNumpy (r8.rightMats (badEnv ε)) r8.rank.reverse ε
          (psiError u (.leaf (.sparse x61)) r8.rank.reverse r8 (r8.absRightMats (badEnv ε)) Y.cores) B := by
  have hQ := badEnv_qr hε
  obtain ⟨Y, hY⟩ := C95_success_supplied (badEnv ε) ε hQ (.leaf (.sparse x61)) r8 none none x61_valid x61_distinct
    x61_exact (x61_acc r8_wf rfl rfl) rfl (two_cases (by decide) (by decide))
  have hg : ∀ D, some r8 = some D → D.WF ∧ D.toDRMBase.Full ∧ D.transpose = true :=
    fun D h => by cases h; exact ⟨r8_wf.1, r8_wf.2, rfl⟩
  have p1 : ∀ n ∈ (Tensor.leaf (.sparse x61)).shape, 0 < n := by
    show ∀ n ∈ [2, 3, 2], 0 < n
    decide
  have p2 : ∀ r ∈ r8.rank, 0 < r := by
    show ∀ n ∈ [2, 2], 0 < n
    decide
  have hF := C108_runs u hu (badEnv ε) _ _ _ _ _ _ Y hg x61_valid trivial (by decide) hY
  obtain ⟨-, -, -, h4, h5⟩ := C108 u hu (badEnv ε) ε hε hQ _ _ _ _ _ Y r8 hg x61_valid trivial (by decide) x61_distinct
    x61_exact p1 p2 rfl hF
  exact ⟨Y, hF, h4, h5⟩

end TTS.Props
