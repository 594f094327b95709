import Verif.Proofs.ApproxHmt
import Verif.Props.ApproxOrth

/-!
# C95: `hmt_sketch` with an inexact QR factorisation

`QRApproxContract`, `sketchedNorm` and `coeffNorm` are in `Spec/ApproxHmt.lean`, `rangeErrSq` in `Spec/OrthErr.lean`.
-/

namespace TTS.Props

open TTS Finset

theorem hmt_near {ε : ℝ} (hε : 0 ≤ ε) {Y : TT ℝ} {sh lr : List ℕ}
    (hC : Cores Y.cores (fun k => (1 :: lr ++ [1]).getD k 0) fun k => sh.getD k 0) (hl : Y.cores.length = sh.length)
    (h : ∀ mu < sh.length - 1, ∃ C', Partner ε (Y.cores.getD mu (ND.zeros [])) C') :
    ∀ C ∈ Y.cores.dropLast, C.NearLeftOrthogonal (2 * ε + ε ^ 2) := by
  intro C hC'
  obtain ⟨k, hk, rfl⟩ := List.mem_iff_getElem.1 hC'
  rw [List.length_dropLast] at hk
  obtain ⟨C', hp⟩ := h k (by omega)
  have := partner_near hε (hC k (by omega)) hp
  rw [getD_eq (by omega)] at this
  simpa using this

/-- **C95.** If every QR factorisation has relative error at most `ε`, then `hmt_sketch` returns a tensor train of the
tensor's shape with the ranks of the DRM, all cores but the last are left-orthogonal up to `2ε + ε²`, and for every choice of
the coefficient matrices `B`, `‖X - Y‖ ≤ (∑ ‖X_mu - (X_mu R_mu) B_mu‖²)^(1/2)
+ N ε (1+ε)^N (∑ ‖X_mu R_mu‖² ‖B_mu‖²)^(1/2) + 2 N ε (1+ε)^(2N) ‖X‖`, where `N` is the number of bonds. -/
theorem C95 (env : Env ℝ) (ε : ℝ) (hε : 0 ≤ ε) (hQ : QRApproxContract env ε) (X : Tensor ℝ) (rank : RankArg)
    (seed : Option ℕ) (kind : Option DRMKind) (drm : Option (DRM ℝ)) (b : Bool) (Y : TT ℝ) (D : DRM ℝ)
    (hg : ∀ D, drm = some D → D.WF ∧ D.toDRMBase.Full ∧ D.transpose = true) (hX : X.Valid) (hne : X.NonEmpty)
    (hd : 2 ≤ X.shape.length) (hdist : X.Distinct) (hx : ∀ t ∈ X.summands, t.RightExact)
    (p1 : ∀ n ∈ X.shape, 0 < n) (p2 : ∀ r ∈ D.rank, 0 < r)
    (hD : hmtDRM env X.shape rank (seed.getD (env.freshSeed % 2 ^ 32)) kind drm = .ok D)
    (h : hmtSketch env X rank seed kind drm b = .ok Y) :
    Y.Valid ∧ Y.shape = X.shape ∧ Y.rank = D.rank.reverse ∧
    (∀ C ∈ Y.cores.dropLast, C.NearLeftOrthogonal (2 * ε + ε ^ 2)) ∧
    ∀ B : ℕ → ℕ → List ℕ → ℝ, frobD X.toNumpy Y.toNumpy ≤ √ (∑ mu ∈ range (X.shape.length - 1),
        rangeErrSq X.toNumpy (D.rightMats env) (mu + 1) (D.rank.reverse.getD mu 0) (B mu))
      + hmtRounding X.toNumpy (D.rightMats env) D.rank.reverse ε B := by
  obtain ⟨-, D', h0, hO⟩ := hmt_inv hg hX hne hd h
  rw [hD] at h0
  injection h0 with h0
  subst h0
  have hsh := Tensor.toNumpy_shape hX
  have hr := hO.run' hX (streamsWith_exact hX hO.acc hO.dir hdist hx)
  have hs := hO.acc.shape
  have n1 := hO.ranks
  rw [← hsh] at hr n1 hd p1 hs ⊢
  have hC := orthRun_shape hr n1 n1 rfl le_rfl
  obtain ⟨w1, w2, w3⟩ := cores_tt hC (by omega) hr.len n1
  have key := hmt_approx hε hQ hr hd n1 (fun b => by rw [rightMats_last env (by rw [hs])]) p1
    (fun _ hr => p2 _ (by simpa using hr))
  refine ⟨w1, w2, w3, hmt_near hε hC hr.len (key fun _ _ _ => 0).1, fun B => ?_⟩
  have := (key B).2
  unfold hmtRounding
  linarith

/-- **C95, dense arrays** with any number of modes. -/
theorem C95_dense (env : Env ℝ) (ε : ℝ) (hε : 0 ≤ ε) (hQ : QRApproxContract env ε) (X : ND ℝ) (rank : RankArg)
    (seed : Option ℕ) (kind : Option DRMKind) (drm : Option (DRM ℝ)) (b : Bool) (Y : TT ℝ) (D : DRM ℝ)
    (hg : ∀ D, drm = some D → D.WF ∧ D.toDRMBase.Full ∧ D.transpose = true)
    (hd : 2 ≤ X.shape.length) (p1 : ∀ n ∈ X.shape, 0 < n) (p2 : ∀ r ∈ D.rank, 0 < r)
    (hD : hmtDRM env X.shape rank (seed.getD (env.freshSeed % 2 ^ 32)) kind drm = .ok D)
    (h : hmtSketch env (.leaf (.dense X)) rank seed kind drm b = .ok Y) :
    Y.Valid ∧ Y.shape = X.shape ∧ Y.rank = D.rank.reverse ∧
    (∀ C ∈ Y.cores.dropLast, C.NearLeftOrthogonal (2 * ε + ε ^ 2)) ∧
    ∀ B : ℕ → ℕ → List ℕ → ℝ, frobD X Y.toNumpy ≤ √ (∑ mu ∈ range (X.shape.length - 1),
        rangeErrSq X (D.rightMatsDense env) (mu + 1) (D.rank.reverse.getD mu 0) (B mu))
      + hmtRounding X (D.rightMatsDense env) D.rank.reverse ε B := by
  obtain ⟨-, D', h0, hO⟩ := hmt_inv (X := .leaf (.dense X)) hg trivial trivial hd h
  have h0 : hmtDRM env X.shape rank (seed.getD (env.freshSeed % 2 ^ 32)) kind drm = .ok D' := h0
  rw [hD] at h0
  injection h0 with h0
  subst h0
  have hr : OrthRun env X.shape X.get (D.rightMatsDense env) D.rank.reverse D.rank.reverse none Y.cores
    X.shape.length := hO.run' trivial (streamsWith_dense hO.acc hO.dir)
  have hs : X.shape = D.shape := hO.acc.shape
  have n1 : D.rank.reverse.length = X.shape.length - 1 := hO.ranks
  have hC := orthRun_shape hr n1 n1 rfl le_rfl
  obtain ⟨w1, w2, w3⟩ := cores_tt hC (by omega) hr.len n1
  have key := hmt_approx hε hQ hr hd n1 (fun b => by rw [rightMatsDense_last env (by rw [hs])]) p1
    (fun _ hr => p2 _ (by simpa using hr))
  refine ⟨w1, w2, w3, hmt_near hε hC hr.len (key fun _ _ _ => 0).1, fun B => ?_⟩
  have := (key B).2
  unfold hmtRounding
  linarith

/-- A matrix of full sketched rank has coefficients `B` with `A_k = (A_k R) B`. -/
theorem C95_coeffs (A : ND ℝ) (R : Mats ℝ) (ranks : List ℕ)
    (hrank : ∀ mu < A.shape.length - 1,
      (A.unfolding (mu + 1) * Matrix.of fun (j : Fin (A.shape.drop (mu + 1)).prod) (b : Fin (ranks.getD mu 0)) =>
        R (mu + 1) (unravel (A.shape.drop (mu + 1)) j) b).rank = (A.unfolding (mu + 1)).rank) :
    ∃ B : ℕ → ℕ → List ℕ → ℝ, ∀ mu < A.shape.length - 1, rangeErrSq A R (mu + 1) (ranks.getD mu 0) (B mu) = 0 := by
  have key : ∀ mu, ∃ V : ℕ → List ℕ → ℝ, mu < A.shape.length - 1 →
      rangeErrSq A R (mu + 1) (ranks.getD mu 0) V = 0 := by
    intro mu
    by_cases hmu : mu < A.shape.length - 1
    · obtain ⟨V, hV⟩ := colSpan_of_rank _ _ _ _ (hrank mu hmu)
      refine ⟨V, fun _ => sumIdx_eq_zero fun i hi => ?_⟩
      have e : A.get i = ∑ b ∈ range (ranks.getD mu 0), rightSketch A R (mu + 1) (i.take (mu + 1)) b
          * V b (i.drop (mu + 1)) := by
        have h1 := hV (i.take (mu + 1)) (i.drop (mu + 1)) (hi.take _) (hi.drop _)
        rw [List.take_append_drop] at h1
        exact h1
      rw [e, sub_self]; ring
    · exact ⟨fun _ _ => 0, fun h => absurd h hmu⟩
  choose B hB using key
  exact ⟨B, hB⟩

/-- **C95, recovery up to rounding.** If sketching keeps the rank of every unfolding, there are coefficient matrices with
`X_mu = (X_mu R_mu) B_mu` (they depend on the tensor and the DRM, not on the QR routine), and then only the rounding terms
remain. -/
theorem C95_recovery (env : Env ℝ) (ε : ℝ) (hε : 0 ≤ ε) (hQ : QRApproxContract env ε) (X : Tensor ℝ) (rank : RankArg)
    (seed : Option ℕ) (kind : Option DRMKind) (drm : Option (DRM ℝ)) (b : Bool) (Y : TT ℝ) (D : DRM ℝ)
    (hg : ∀ D, drm = some D → D.WF ∧ D.toDRMBase.Full ∧ D.transpose = true) (hX : X.Valid) (hne : X.NonEmpty)
    (hd : 2 ≤ X.shape.length) (hdist : X.Distinct) (hx : ∀ t ∈ X.summands, t.RightExact)
    (p1 : ∀ n ∈ X.shape, 0 < n) (p2 : ∀ r ∈ D.rank, 0 < r)
    (hD : hmtDRM env X.shape rank (seed.getD (env.freshSeed % 2 ^ 32)) kind drm = .ok D)
    (h : hmtSketch env X rank seed kind drm b = .ok Y) (B : ℕ → ℕ → List ℕ → ℝ)
    (hB : ∀ mu < X.shape.length - 1,
      rangeErrSq X.toNumpy (D.rightMats env) (mu + 1) (D.rank.reverse.getD mu 0) (B mu) = 0) :
    frobD X.toNumpy Y.toNumpy ≤ hmtRounding X.toNumpy (D.rightMats env) D.rank.reverse ε B := by
  have h1 := (C95 env ε hε hQ X rank seed kind drm b Y D hg hX hne hd hdist hx p1 p2 hD h).2.2.2.2 B
  rw [sum_eq_zero fun mu hmu => hB mu (by simpa using hmu), Real.sqrt_zero, zero_add] at h1
  exact h1

/-- **C95, recovery up to rounding, dense arrays.** -/
theorem C95_recovery_dense (env : Env ℝ) (ε : ℝ) (hε : 0 ≤ ε) (hQ : QRApproxContract env ε) (X : ND ℝ) (rank : RankArg)
    (seed : Option ℕ) (kind : Option DRMKind) (drm : Option (DRM ℝ)) (b : Bool) (Y : TT ℝ) (D : DRM ℝ)
    (hg : ∀ D, drm = some D → D.WF ∧ D.toDRMBase.Full ∧ D.transpose = true)
    (hd : 2 ≤ X.shape.length) (p1 : ∀ n ∈ X.shape, 0 < n) (p2 : ∀ r ∈ D.rank, 0 < r)
    (hD : hmtDRM env X.shape rank (seed.getD (env.freshSeed % 2 ^ 32)) kind drm = .ok D)
    (h : hmtSketch env (.leaf (.dense X)) rank seed kind drm b = .ok Y) (B : ℕ → ℕ → List ℕ → ℝ)
    (hB : ∀ mu < X.shape.length - 1,
      rangeErrSq X (D.rightMatsDense env) (mu + 1) (D.rank.reverse.getD mu 0) (B mu) = 0) :
    frobD X Y.toNumpy ≤ hmtRounding X (D.rightMatsDense env) D.rank.reverse ε B := by
  have h1 := (C95_dense env ε hε hQ X rank seed kind drm b Y D hg hd p1 p2 hD h).2.2.2.2 B
  rw [sum_eq_zero fun mu hmu => hB mu (by simpa using hmu), Real.sqrt_zero, zero_add] at h1
  exact h1

theorem _root_.TTS.QRApproxContract.qrShape {env : Env ℝ} {ε : ℝ} (hQ : QRApproxContract env ε) : QRShape env :=
  fun M m n h => (hQ M m n h).1

/-- **C95, success.** The error of the QR factorisations cannot make the call fail. -/
theorem C95_success (env : Env ℝ) (ε : ℝ) (hQ : QRApproxContract env ε) (X : Tensor ℝ) (rank : RankArg)
    (seed : Option ℕ) (kind : Option DRMKind) (hX : X.Valid) (hd : 2 ≤ X.shape.length)
    (hdist : X.Distinct) (hx : ∀ t ∈ X.summands, t.RightExact)
    (hl : (ranksOf rank X.shape.length).length = X.shape.length - 1)
    (p1 : ∀ n ∈ X.shape, 0 < n) (p2 : ∀ r ∈ ranksOf rank X.shape.length, 0 < r)
    (hseed : seed.getD 0 < 2 ^ 32)
    (hsup : ∀ t ∈ X.summands, ∀ D : DRMData ℝ, D.kind = kind.getD .tensorTrain → D.supports t = true) :
    ∃ Y, hmtSketch env X rank seed kind = .ok Y :=
  hmt_fresh hQ.qrShape rank seed kind hX hd hl p1 p2 hseed hsup
    fun _ hr ht => ⟨_, streamsWith_exact hX hr ht hdist hx⟩

/-- **C95, success with a supplied DRM** that fits the tensor. -/
theorem C95_success_supplied (env : Env ℝ) (ε : ℝ) (hQ : QRApproxContract env ε) (X : Tensor ℝ) (D : DRM ℝ)
    (seed : Option ℕ) (kind : Option DRMKind) (hX : X.Valid) (hdist : X.Distinct)
    (hx : ∀ t ∈ X.summands, t.RightExact) (hD : D.AcceptsT X) (ht : D.transpose = true)
    (hfit : ∀ mu < X.shape.length - 1,
      D.rank.reverse.getD mu 0 ≤ (1 :: D.rank.reverse).getD mu 0 * X.shape.getD mu 0) :
    ∃ Y, hmtSketch env X (.seq D.rank.reverse) seed kind (some D) = .ok Y := by
  obtain ⟨C, hC⟩ := hmt_general_ok hQ.qrShape hX hD (streamsWith_exact hX hD ht hdist hx) hfit
  unfold hmtSketch
  simp only [Except.andThen, hmtDRM, if_true, hC]
  exact ⟨_, rfl⟩

/-- An exact routine has error `0`, and `C95` with `ε = 0` is the bound of `C62_hmt`. -/
theorem qrApprox_of_exact {env : Env ℝ} (hQ : QRContract env) : QRApproxContract env 0 := fun M m n hM =>
  ⟨(hQ M m n hM).shapeQ, M, (env.qr M).1, hM, hQ M m n hM, by rw [frobD_self]; simp, by rw [frobD_self]⟩

theorem hmtRounding_zero (A : ND ℝ) (R : Mats ℝ) (ranks : List ℕ) (B : ℕ → ℕ → List ℕ → ℝ) :
    hmtRounding A R ranks 0 B = 0 := by
  unfold hmtRounding; simp

/-! ### Example: the sparse tensor `x61` with a routine that factorises a perturbed matrix and returns a perturbed `Q` -/

noncomputable def badEnv (ε : ℝ) : Env ℝ := { env61 with qr := (badQr ε).qr }

theorem badEnv_qr {ε : ℝ} (h0 : 0 ≤ ε) : QRApproxContract (badEnv ε) ε := badQr_approx h0

example (ε : ℝ) (hε : 0 ≤ ε) : ∃ Y, hmtSketch (badEnv ε) (.leaf (.sparse x61)) (.seq [2, 2]) none none (some r8) = .ok Y ∧
    (∀ C ∈ Y.cores.dropLast, C.NearLeftOrthogonal (2 * ε + ε ^ 2)) ∧
    ∀ B : ℕ → ℕ → List ℕ → ℝ, frobD x61.toNumpy Y.toNumpy ≤ √ (∑ mu ∈ range 2,
        rangeErrSq x61.toNumpy (r8.rightMats (badEnv ε)) (mu + 1) (r8.rank.reverse.getD mu 0) (B mu))
      + hmtRounding x61.toNumpy (r8.rightMats (badEnv ε)) r8.rank.reverse ε B := by
  have hQ := badEnv_qr hε
  obtain ⟨Y, hY⟩ := C95_success_supplied (badEnv ε) ε hQ (.leaf (.sparse x61)) r8 none none x61_valid x61_distinct
    x61_exact (x61_acc r8_wf rfl rfl) rfl (two_cases (by decide) (by decide))
  have hg : ∀ D, some r8 = some D → D.WF ∧ D.toDRMBase.Full ∧ D.transpose = true :=
    fun D h => by cases h; exact ⟨r8_wf.1, r8_wf.2, rfl⟩
  have p1 : ∀ n ∈ (Tensor.leaf (.sparse x61)).shape, 0 < n := by
    show ∀ n ∈ [2, 3, 2], 0 < n
    decide
  have p2 : ∀ r ∈ r8.rank, 0 < r := by
    show ∀ n ∈ [2, 2], 0 < n
    decide
  obtain ⟨-, -, -, h4, h5⟩ := C95 (badEnv ε) ε hε hQ _ _ _ _ _ _ Y r8 hg x61_valid trivial (by decide) x61_distinct
    x61_exact p1 p2 rfl hY
  exact ⟨Y, hY, h4, h5⟩

end TTS.Props
