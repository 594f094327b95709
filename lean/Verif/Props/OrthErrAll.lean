import Verif.Props.OrthErr
import Verif.Props.OrthAll
import Verif.Props.TestTensors

/-!
# C62, and exact recovery (C41, C42), for every format

`X.rightCols env r k` is the `k`-th unfolding of `X` as sketched by the right DRM `r` (`Spec/RightCols.lean`).  Tucker
tensors with any number of modes and lazy sums mixing any formats are included.
-/

namespace TTS.Props

open TTS Finset

theorem defect_cols {sh : List ℕ} {f : List ℕ → ℝ} {cs : List (ND ℝ)} {rk n : ℕ → ℕ} (h : Cores cs rk n)
    (h0 : rk 0 = 1) (hn : ∀ mu, n mu = sh.getD mu 0) {mu : ℕ} (hmu : mu < sh.length) (hl : cs.length = sh.length)
    (ho : ∀ k < mu, (cs.getD k (ND.zeros [])).LeftOrthogonal) (W : ℕ → List ℕ → ℕ → ℝ) (r : ℕ) (U : ℕ → List ℕ → ℝ)
    (y : ℕ → List ℕ → ℝ)
    (hy : ∀ a < rk mu, ∀ j < n mu, ∀ q, InR (sh.drop (mu + 1)) q →
      ∑ t ∈ range (rk (mu + 1)), (cs.getD mu (ND.zeros [])).get [a, j, t] * y t q
        = ∑ b ∈ range r, psiCols sh W cs mu a j b * U b q) :
    (∑ a ∈ range (rk mu), ∑ j ∈ range (n mu), sumIdx (sh.drop (mu + 1)) fun q =>
        (pcL sh f (coreMats cs) mu a (j :: q)
          - ∑ t ∈ range (rk (mu + 1)), (cs.getD mu (ND.zeros [])).get [a, j, t] * y t q) ^ 2)
      ≤ sumIdx sh fun i => (f i - ∑ b ∈ range r, W (mu + 1) (i.take (mu + 1)) b * U b (i.drop (mu + 1))) ^ 2 := by
  set g : List ℕ → ℝ := fun i => f i - ∑ b ∈ range r, W (mu + 1) (i.take (mu + 1)) b * U b (i.drop (mu + 1))
  have key := pcNorm_le (f := g) h h0 hn mu (by omega) hmu.le ho
  refine le_trans (le_of_eq ?_) key
  rw [pcNorm]
  refine sum_congr rfl fun a ha => ?_
  rw [sumIdx_drop_succ hmu, hn mu]
  refine sum_congr rfl fun j hj => sumIdx_congr fun q hq => ?_
  congr 1
  rw [pcL_sub]
  congr 1
  rw [hy a (by simpa using ha) j (by rw [hn]; simpa using hj) q hq]
  unfold pcL
  have e : ∀ p, InR (sh.take mu) p → coreMats cs mu p a * ∑ b ∈ range r,
        W (mu + 1) ((p ++ j :: q).take (mu + 1)) b * U b ((p ++ j :: q).drop (mu + 1))
      = ∑ b ∈ range r, coreMats cs mu p a * W (mu + 1) (p ++ [j]) b * U b q := by
    intro p hp
    have hpl : p.length = mu := by rw [hp.length, List.length_take]; omega
    have e1 : (p ++ j :: q).take (mu + 1) = p ++ [j] := by
      rw [show p ++ j :: q = (p ++ [j]) ++ q by simp, List.take_left' (by simp [hpl])]
    have e2 : (p ++ j :: q).drop (mu + 1) = q := by
      rw [show p ++ j :: q = (p ++ [j]) ++ q by simp, List.drop_left' (by simp [hpl])]
    rw [e1, e2, mul_sum]
    exact sum_congr rfl fun b _ => by ring
  rw [sumIdx_congr e, sumIdx_sum]
  refine sum_congr rfl fun b _ => ?_
  unfold psiCols
  rw [sumIdx_mul]

section
variable {env : Env ℝ} {X : Tensor ℝ} {W : ℕ → List ℕ → ℕ → ℝ} {lr rr : List ℕ} {om : Option (List (ND ℝ))} {Y : TT ℝ}

theorem OrthAny.error (hE : LstsqContract env) (hQ : QRContract env) (hX : X.Valid) (hD : X.Distinct)
    (hd : 2 ≤ X.shape.length) (h : OrthAny env X W lr rr om Y.cores X.shape.length)
    (hl : lr.length = X.shape.length - 1) (hr : rr.length = X.shape.length - 1)
    (hom : OmShapes lr rr X.shape.length om) (p1 : ∀ n ∈ X.shape, 0 < n) (p2 : ∀ r ∈ lr, 0 < r)
    (U : ℕ → ℕ → List ℕ → ℝ)
    (hy : ∀ mu < X.shape.length - 1, ∃ y : ℕ → List ℕ → ℝ, ∀ a < (1 :: lr).getD mu 0, ∀ j < X.shape.getD mu 0, ∀ q,
      ∑ t ∈ range (lr.getD mu 0), (Y.cores.getD mu (ND.zeros [])).get [a, j, t] * y t q
        = ∑ b ∈ range (rr.getD mu 0), psiCols X.shape W Y.cores mu a j b * U mu b q) :
    distSq X.toNumpy Y.toNumpy
      ≤ ∑ mu ∈ range (X.shape.length - 1), colsErrSq X.toNumpy W (mu + 1) (rr.getD mu 0) (U mu) := by
  have hP := h.projects hE hQ hX hD hd hl hr hom p1 p2
  obtain ⟨-, -, -, ho⟩ := h.form hE hQ hd hl hr hom
  have ho := ho p1 p2
  have hC := h.shape hl hr hom le_rfl
  have hlast := (h.last (X.shape.length - 1) (by omega) (by omega)).2 hD
  have hlen : Y.cores.length = X.shape.length := h.len
  have hsh := Tensor.toNumpy_shape hX
  obtain ⟨v1, v2, -⟩ := cores_tt hC (by omega) hlen hl
  have v1 : Y.Valid := v1
  have v2 : Y.shape = X.shape := v2
  have n0 : normSq Y.toNumpy = sumIdx X.shape fun i => ttEntry Y i ^ 2 := by
    unfold normSq
    rw [TT.toNumpy_shape v1, v2]
    exact sumIdx_congr fun i _ => by rw [TT.toNumpy_get v1]
  have e1 : distSq X.toNumpy Y.toNumpy = normSq X.toNumpy - normSq Y.toNumpy := by have := hP.norm; linarith
  have e2 : normSq X.toNumpy = sumIdx X.shape fun i => X.toNumpy.get i ^ 2 := by unfold normSq; rw [hsh]
  rw [e1, n0, e2]
  have hY : Y = TT.mk Y.cores := rfl
  rw [hY, frame_norm (f := X.toNumpy.get) hC rfl (aug_last (by omega)) (fun _ => rfl) (by omega) hlen ho
    (fun a ha j hj => hlast a (by rwa [aug_left (by omega)] at ha) j hj)]
  refine frame_error hC rfl (fun _ => rfl) _ _ (by omega) (by omega) ho fun mu hmu => ?_
  obtain ⟨y, hy⟩ := hy mu hmu
  refine ⟨y, ?_⟩
  unfold colsErrSq
  rw [hsh]
  refine defect_cols hC rfl (fun _ => rfl) (by omega) hlen (fun k hk => ho k (by omega)) W (rr.getD mu 0) (U mu) y ?_
  intro a ha j hj q _
  beta_reduce at ha hj ⊢
  rw [aug_left (by omega)] at ha
  rw [aug_right (by omega), hy a ha j hj q]

end

/-- **C62, `hmt_sketch`, every format.** The squared error is at most the sum over the bonds of the squared error of the
best approximation of the unfolding within the column space of the sketched unfolding: for every choice of the
coefficient matrices `B`, `‖X - Y‖² ≤ ∑ ‖X_mu - W_mu B_mu‖²`. -/
theorem C62_hmt_all (env : Env ℝ) (hE : LstsqContract env) (hQ : QRContract env) (X : Tensor ℝ) (rank : RankArg)
    (seed : Option ℕ) (kind : Option DRMKind) (drm : Option (DRM ℝ)) (b : Bool) (Y : TT ℝ) (D : DRM ℝ)
    (hg : ∀ D, drm = some D → D.WF ∧ D.toDRMBase.Full ∧ D.transpose = true) (hX : X.Valid) (hne : X.NonEmpty)
    (hd : 2 ≤ X.shape.length) (hdist : X.Distinct) (p1 : ∀ n ∈ X.shape, 0 < n) (p2 : ∀ r ∈ D.rank, 0 < r)
    (hD : hmtDRM env X.shape rank (seed.getD (env.freshSeed % 2 ^ 32)) kind drm = .ok D)
    (h : hmtSketch env X rank seed kind drm b = .ok Y) (B : ℕ → ℕ → List ℕ → ℝ) :
    distSq X.toNumpy Y.toNumpy ≤ ∑ mu ∈ range (X.shape.length - 1),
      colsErrSq X.toNumpy (X.rightCols env D) (mu + 1) (D.rank.reverse.getD mu 0) (B mu) := by
  obtain ⟨-, D', h0, hO⟩ := hmt_inv hg hX hne hd h
  rw [hD] at h0
  injection h0 with h0
  subst h0
  have p2' : ∀ r ∈ D.rank.reverse, 0 < r := fun _ hr => p2 _ (by simpa using hr)
  have hA := hO.any hX
  refine hA.error hE hQ hX hdist hd hO.ranks hO.ranks rfl p1 p2' B fun mu hmu => ?_
  obtain ⟨P, hP, hs, hv⟩ := hA.step mu (by omega) hmu
  obtain ⟨-, -, y, hy⟩ := orthStep_none hQ hP (positive_fit p1 p2' hO.ranks mu hmu) hs
  refine ⟨fun t q => ∑ b ∈ range (D.rank.reverse.getD mu 0), y t b * B mu b q, fun a ha j hj q => ?_⟩
  rw [sum_congr rfl fun t _ => mul_sum _ _ _, sum_comm]
  refine sum_congr rfl fun b hb => ?_
  rw [← hv hdist a ha j hj b (by simpa using hb), ← hy a ha j hj b (by simpa using hb), sum_mul]
  exact sum_congr rfl fun t _ => (mul_assoc _ _ _).symm

/-- **C62, `orthogonal_sketch`, every format.** There are generalised inverses `G_mu` of the matrices
`Omega_mu = L_mu W_mu` such that for all `V_mu` the squared error is at most `∑ ‖X_mu - W_mu G_mu V_mu‖²`; with
`V_mu = L_mu X_mu` this is the sum of the squared errors of the generalised Nyström approximations. -/
theorem C62_orth_all (env : Env ℝ) (hE : PinvContract env) (hQ : QRContract env) (X : Tensor ℝ) (lrank rrank : RankArg)
    (kw : SketchKw ℝ) (Y : TT ℝ) (l r : DRM ℝ) (hkw : kw.Good) (hX : X.Valid) (hne : X.NonEmpty)
    (hd : 2 ≤ X.shape.length) (hdist : X.Distinct) (p1 : ∀ n ∈ X.shape, 0 < n) (p2 : ∀ r ∈ l.rank, 0 < r)
    (h : orthogonalSketch env X lrank rrank kw = .ok (Y, l, r)) :
    ∃ G : ℕ → ℕ → ℕ → ℝ,
      (∀ mu < X.shape.length - 1, ∀ c < l.rank.getD mu 0, ∀ b < r.rank.reverse.getD mu 0,
        ∑ t ∈ range (r.rank.reverse.getD mu 0), ∑ s ∈ range (l.rank.getD mu 0),
          colsOmega X.shape (l.leftMats env) (X.rightCols env r) (mu + 1) c t * G mu t s
          * colsOmega X.shape (l.leftMats env) (X.rightCols env r) (mu + 1) s b
        = colsOmega X.shape (l.leftMats env) (X.rightCols env r) (mu + 1) c b) ∧
      (∀ V : ℕ → ℕ → List ℕ → ℝ, distSq X.toNumpy Y.toNumpy ≤ ∑ mu ∈ range (X.shape.length - 1),
        colsErrSq X.toNumpy (X.rightCols env r) (mu + 1) (r.rank.reverse.getD mu 0)
          fun b q => ∑ c ∈ range (l.rank.getD mu 0), G mu b c * V mu c q) ∧
      distSq X.toNumpy Y.toNumpy ≤ ∑ mu ∈ range (X.shape.length - 1),
        colsErrSq X.toNumpy (X.rightCols env r) (mu + 1) (r.rank.reverse.getD mu 0)
          fun b q => ∑ c ∈ range (l.rank.getD mu 0), G mu b c * leftSketch X.toNumpy (l.leftMats env) (mu + 1) c q := by
  obtain ⟨hO, -⟩ := orth_inv hkw hX hne hd h
  obtain ⟨n1, n2⟩ := hO.accL.ranks hO.accR
  obtain ⟨om, hom, hA, hv⟩ := hO.any hX
  have hv := hv hdist
  have key : ∀ mu, ∃ G : ℕ → ℕ → ℝ, mu < X.shape.length - 1 →
      (∀ c < l.rank.getD mu 0, ∀ b < r.rank.reverse.getD mu 0,
        ∑ t ∈ range (r.rank.reverse.getD mu 0), ∑ s ∈ range (l.rank.getD mu 0),
          colsOmega X.shape (l.leftMats env) (X.rightCols env r) (mu + 1) c t * G t s
          * colsOmega X.shape (l.leftMats env) (X.rightCols env r) (mu + 1) s b
        = colsOmega X.shape (l.leftMats env) (X.rightCols env r) (mu + 1) c b) ∧
      ∃ y : ℕ → ℕ → ℝ, ∀ i < (1 :: l.rank).getD mu 0, ∀ j < X.shape.getD mu 0, ∀ c < l.rank.getD mu 0,
          ∑ t ∈ range (l.rank.getD mu 0), (Y.cores.getD mu (ND.zeros [])).get [i, j, t] * y t c
            = ∑ b ∈ range (r.rank.reverse.getD mu 0),
              psiCols X.shape (X.rightCols env r) Y.cores mu i j b * G b c := by
    intro mu
    by_cases hmu : mu < X.shape.length - 1
    · obtain ⟨P, hP, hs, hw⟩ := hA.step mu (by omega) hmu
      obtain ⟨G, g1, g2⟩ := orthStep_pinv hE hQ (hom mu hmu)
      refine ⟨G, fun _ => ⟨fun c hc b hb => ?_, ?_⟩⟩
      · have := g1 c hc b hb
        rw [hv mu hmu c hc b hb] at this
        rw [← this]
        refine sum_congr rfl fun t ht => sum_congr rfl fun s hs => ?_
        rw [hv mu hmu c hc t (by simpa using ht), hv mu hmu s (by simpa using hs) b hb]
      · obtain ⟨y, hy⟩ := g2 P _ _ _ hP (positive_fit p1 p2 n1 mu hmu) hs
        refine ⟨y, fun i hi j hj c hc => ?_⟩
        rw [hy i hi j hj c hc]
        exact sum_congr rfl fun b hb => by rw [hw hdist i hi j hj b (by simpa using hb)]
    · exact ⟨fun _ _ => 0, fun h => absurd h hmu⟩
  choose G hG using key
  have main : ∀ V : ℕ → ℕ → List ℕ → ℝ, distSq X.toNumpy Y.toNumpy ≤ ∑ mu ∈ range (X.shape.length - 1),
        colsErrSq X.toNumpy (X.rightCols env r) (mu + 1) (r.rank.reverse.getD mu 0)
          fun b q => ∑ c ∈ range (l.rank.getD mu 0), G mu b c * V mu c q := by
    intro V
    refine hA.error hE.lstsq hQ hX hdist hd n1 n2 hom p1 p2 _ fun mu hmu => ?_
    obtain ⟨-, y, hy⟩ := hG mu hmu
    refine ⟨fun t q => ∑ c ∈ range (l.rank.getD mu 0), y t c * V mu c q, fun a ha j hj q => ?_⟩
    rw [sum_congr rfl fun t _ => mul_sum _ _ _, sum_comm, sum_congr rfl fun b _ => mul_sum _ _ _,
      sum_comm (s := range (r.rank.reverse.getD mu 0))]
    refine sum_congr rfl fun c hc => ?_
    simp only [← mul_assoc]
    rw [← sum_mul, ← sum_mul, hy a ha j hj c (by simpa using hc)]
  exact ⟨G, fun mu hmu => (hG mu hmu).1, main, main _⟩

theorem colsErrSq_zero {A : ND ℝ} {W : ℕ → List ℕ → ℕ → ℝ} {k r : ℕ} {B : ℕ → List ℕ → ℝ}
    (h : ∀ p q, InR (A.shape.take k) p → InR (A.shape.drop k) q →
      A.get (p ++ q) = ∑ b ∈ range r, W k p b * B b q) : colsErrSq A W k r B = 0 := by
  unfold colsErrSq
  rw [← sum_take_drop A.shape k]
  refine sumIdx_eq_zero fun p hp => sumIdx_eq_zero fun q hq => ?_
  rcases le_or_gt k A.shape.length with hk | hk
  · have hpl : p.length = k := by rw [hp.length, List.length_take]; omega
    rw [List.take_left' hpl, List.drop_left' hpl, h p q hp hq, sub_self]; norm_num
  · rw [List.drop_eq_nil_of_le hk.le] at hq
    have hq' : q = [] := by simpa using hq.length
    subst hq'
    have hpl : p.length < k := by rw [hp.length, List.length_take]; omega
    rw [List.append_nil, List.take_of_length_le hpl.le, List.drop_eq_nil_of_le hpl.le]
    have := h p [] hp (by rw [List.drop_eq_nil_of_le hk.le]; trivial)
    rw [List.append_nil] at this
    rw [this, sub_self]; norm_num

theorem eq_of_distSq_le {X : Tensor ℝ} {Y : TT ℝ} (hX : X.Valid) (hY : Y.Valid) (hs : Y.shape = X.shape)
    (h : distSq X.toNumpy Y.toNumpy ≤ 0) : Y.toNumpy = X.toNumpy := by
  have hsh := Tensor.toNumpy_shape hX
  refine ND.ext' (by rw [TT.toNumpy_shape hY, hs, hsh]) fun i hi => ?_
  rw [TT.toNumpy_shape hY, hs] at hi
  unfold distSq at h
  rw [hsh] at h
  have h0 := sumIdx_eq_zero_iff_nonneg (f := fun i => (X.toNumpy.get i - Y.toNumpy.get i) ^ 2) (fun i => sq_nonneg _)
    (le_antisymm h (TTS.sumIdx_nonneg fun i => sq_nonneg _)) i hi
  have := pow_eq_zero_iff (two_ne_zero) |>.1 h0
  linarith

/-- **C42, exact recovery, every format.** If every unfolding `X_mu` factors through its sketched columns
(`X_mu = W_mu B_mu` for some `B_mu`), `hmt_sketch` returns a tensor train denoting exactly the tensor. -/
theorem C42_recovery_all (env : Env ℝ) (hE : LstsqContract env) (hQ : QRContract env) (X : Tensor ℝ) (rank : RankArg)
    (seed : Option ℕ) (kind : Option DRMKind) (drm : Option (DRM ℝ)) (b : Bool) (Y : TT ℝ) (D : DRM ℝ)
    (hg : ∀ D, drm = some D → D.WF ∧ D.toDRMBase.Full ∧ D.transpose = true) (hX : X.Valid) (hne : X.NonEmpty)
    (hd : 2 ≤ X.shape.length) (hdist : X.Distinct) (p1 : ∀ n ∈ X.shape, 0 < n) (p2 : ∀ r ∈ D.rank, 0 < r)
    (hD : hmtDRM env X.shape rank (seed.getD (env.freshSeed % 2 ^ 32)) kind drm = .ok D)
    (h : hmtSketch env X rank seed kind drm b = .ok Y)
    (hB : ∀ mu < X.shape.length - 1, ∃ B : ℕ → List ℕ → ℝ, ∀ p q, InR (X.shape.take (mu + 1)) p →
      InR (X.shape.drop (mu + 1)) q → X.toNumpy.get (p ++ q)
        = ∑ b ∈ range (D.rank.reverse.getD mu 0), X.rightCols env D (mu + 1) p b * B b q) :
    Y.toNumpy = X.toNumpy := by
  haveI : Nonempty (ℕ → List ℕ → ℝ) := ⟨fun _ _ => 0⟩
  choose! B hB using hB
  obtain ⟨f1, f2, -⟩ := C42_form_all env hE hQ X rank seed kind drm b Y hg hX hne hd h
  refine eq_of_distSq_le hX f1 f2 ?_
  refine (C62_hmt_all env hE hQ X rank seed kind drm b Y D hg hX hne hd hdist p1 p2 hD h B).trans (le_of_eq ?_)
  refine sum_eq_zero fun mu hmu => colsErrSq_zero fun p q hp hq => ?_
  rw [Tensor.toNumpy_shape hX] at hp hq
  exact hB mu (by simpa using hmu) p q hp hq

/-- **C41, exact recovery, every format.** If every unfolding factors through its sketched columns (`X_mu = W_mu B_mu`)
and the left sketch loses none of their rows (`W_mu = C_mu Omega_mu`), `orthogonal_sketch` returns a tensor train
denoting exactly the tensor. -/
theorem C41_recovery_all (env : Env ℝ) (hE : PinvContract env) (hQ : QRContract env) (X : Tensor ℝ)
    (lrank rrank : RankArg) (kw : SketchKw ℝ) (Y : TT ℝ) (l r : DRM ℝ) (hkw : kw.Good) (hX : X.Valid) (hne : X.NonEmpty)
    (hd : 2 ≤ X.shape.length) (hdist : X.Distinct) (p1 : ∀ n ∈ X.shape, 0 < n) (p2 : ∀ r ∈ l.rank, 0 < r)
    (h : orthogonalSketch env X lrank rrank kw = .ok (Y, l, r))
    (hB : ∀ mu < X.shape.length - 1, ∃ B : ℕ → List ℕ → ℝ, ∀ p q, InR (X.shape.take (mu + 1)) p →
      InR (X.shape.drop (mu + 1)) q → X.toNumpy.get (p ++ q)
        = ∑ b ∈ range (r.rank.reverse.getD mu 0), X.rightCols env r (mu + 1) p b * B b q)
    (hC : ∀ mu < X.shape.length - 1, ∃ C : List ℕ → ℕ → ℝ, ∀ p, InR (X.shape.take (mu + 1)) p →
      ∀ b < r.rank.reverse.getD mu 0, X.rightCols env r (mu + 1) p b
        = ∑ c ∈ range (l.rank.getD mu 0), C p c
          * colsOmega X.shape (l.leftMats env) (X.rightCols env r) (mu + 1) c b) :
    Y.toNumpy = X.toNumpy := by
  obtain ⟨f1, f2, -⟩ := C41_form_all env hE.lstsq hQ X lrank rrank kw Y l r hkw hX hne hd h
  obtain ⟨G, g1, g2, -⟩ := C62_orth_all env hE hQ X lrank rrank kw Y l r hkw hX hne hd hdist p1 p2 h
  haveI : Nonempty (ℕ → List ℕ → ℝ) := ⟨fun _ _ => 0⟩
  haveI : Nonempty (List ℕ → ℕ → ℝ) := ⟨fun _ _ => 0⟩
  choose! B hB using hB
  choose! C hC using hC
  refine eq_of_distSq_le hX f1 f2 ?_
  refine (g2 fun mu c q => ∑ b ∈ range (r.rank.reverse.getD mu 0),
    colsOmega X.shape (l.leftMats env) (X.rightCols env r) (mu + 1) c b * B mu b q).trans (le_of_eq ?_)
  refine sum_eq_zero fun mu hmu => colsErrSq_zero fun p q hp hq => ?_
  have hmu : mu < X.shape.length - 1 := by simpa using hmu
  rw [Tensor.toNumpy_shape hX] at hp hq
  rw [hB mu hmu p q hp hq]
  have g1 := g1 mu hmu
  have hC := hC mu hmu p hp
  generalize B mu = B
  generalize C mu p = C at hC
  generalize G mu = G at g1
  generalize X.rightCols env r (mu + 1) p = W at hC
  generalize colsOmega X.shape (l.leftMats env) (X.rightCols env r) (mu + 1) = O at g1 hC
  generalize r.rank.reverse.getD mu 0 = m at g1 hC
  generalize l.rank.getD mu 0 = n at g1 hC
  -- W G Ω = W
  have key : ∀ b < m, ∑ t ∈ range m, W t * ∑ s ∈ range n, G t s * O s b = W b := by
    intro b hb
    have e : ∀ t ∈ range m, W t * ∑ s ∈ range n, G t s * O s b
        = ∑ c ∈ range n, C c * ∑ s ∈ range n, O c t * G t s * O s b := by
      intro t ht
      rw [hC t (by simpa using ht), sum_mul]
      refine sum_congr rfl fun c _ => ?_
      rw [mul_assoc, mul_sum (a := O c t)]
      congr 1
      exact sum_congr rfl fun s _ => by ring
    rw [sum_congr rfl e, sum_comm, hC b hb]
    refine sum_congr rfl fun c hc => ?_
    rw [← mul_sum, g1 c (by simpa using hc) b hb]
  have e : ∀ t, W t * ∑ c ∈ range n, G t c * ∑ b ∈ range m, O c b * B b q
      = ∑ b ∈ range m, W t * (∑ s ∈ range n, G t s * O s b) * B b q := by
    intro t
    rw [← sum_congr rfl fun b _ => (mul_assoc (W t) _ (B b q)).symm, ← mul_sum]
    congr 1
    rw [sum_congr rfl fun c _ => mul_sum _ _ _, sum_comm]
    refine sum_congr rfl fun b _ => ?_
    rw [sum_mul]
    exact sum_congr rfl fun s _ => by ring
  rw [sum_congr rfl fun t _ => e t, sum_comm]
  refine sum_congr rfl fun b hb => ?_
  rw [← sum_mul, key b (by simpa using hb)]

/-! ### Examples -/

theorem sumIdx_of_const {s : List ℕ} {f : List ℕ → ℝ} {c : ℝ} (h : ∀ i, InR s i → f i = c) :
    sumIdx s f = s.prod * c := by
  rw [sumIdx_congr h]
  clear h
  induction s with
  | nil => simp
  | cons n s ih => rw [sumIdx_cons, sum_congr rfl fun _ _ => ih, sum_const, card_range, nsmul_eq_mul, List.prod_cons]; push_cast; ring

theorem r8_mat (env : Env ℝ) : (∀ q, InR [3, 2] q → ∀ b < 2, r8.rightMats env 1 q b = 2 ∧ r8.rightMatsDense env 1 q b = 2) ∧
    (∀ q, InR [2] q → ∀ b < 2, r8.rightMats env 2 q b = 1 ∧ r8.rightMatsDense env 2 q b = 1) := by
  have e1 : ∀ q, InR [2, 3] q → ∀ b < 2, r8.entry env 1 q b = 2 := by
    intro q hq b hb
    match q, hq with
    | [i, j], hq =>
      have hi : i < 2 := hq.1
      have hj : j < 3 := hq.2.1
      simp [DRM.entry, r8, ttVal, ones, ND.ofFn, ND.dim, sum_range_succ, hi, hj, show b ≤ 1 by omega]
      norm_num
  have e0 : ∀ q, InR [2] q → ∀ b < 2, r8.entry env 0 q b = 1 := by
    intro q hq b hb
    match q, hq with
    | [i], hq =>
      have hi : i < 2 := hq.1
      simp [DRM.entry, r8, ttVal, ones, ND.ofFn, ND.dim, hi, show b ≤ 1 by omega]
  constructor
  · intro q hq b hb
    constructor
    · exact e1 _ (InR.reverse hq) b hb
    · exact e1 _ (unravel_inR (s := [2, 3]) (show _ < 6 from ravel_lt hq)) b hb
  · intro q hq b hb
    constructor
    · exact e0 _ (InR.reverse hq) b hb
    · exact e0 _ (unravel_inR (ravel_lt hq)) b hb

theorem y61_cols (env : Env ℝ) : (∀ p, InR [2] p → ∀ b < 2, y61.rightCols env r8 1 p b = 36) ∧
    (∀ p, InR [2, 3] p → ∀ b < 2, y61.rightCols env r8 2 p b = 6) := by
  obtain ⟨m1, m2⟩ := r8_mat env
  have o2 : ∀ {n m i j : ℕ}, i < n → j < m → (ones [n, m] : ND ℝ).get [i, j] = 1 :=
    fun hi hj => ones_get ⟨hi, hj, trivial⟩
  constructor
  · intro p hp b hb
    match p, hp with
    | [i], hp =>
      have t1 : (Tucker.mk [ones [2, 2], ones [1, 3], ones [1, 2]] (ones [2, 1, 1] : ND ℝ)).rightContr (r8.rightMats env) 1 [i] b = 24 := by
        show (sumIdx [2] fun s => facProd [ones [2, 2]] s [i] * sumIdx [1, 1] fun t => (ones [2, 1, 1] : ND ℝ).get (s ++ t) *
          sumIdx [3, 2] fun q => facProd [ones [1, 3], ones [1, 2]] (unravel [1, 1] (ravel [1, 1] t)).reverse q * r8.rightMats env 1 q b) = 24
        have h : ∀ s, InR [2] s → (facProd [ones [2, 2]] s [i] * sumIdx [1, 1] fun t => (ones [2, 1, 1] : ND ℝ).get (s ++ t) *
          sumIdx [3, 2] fun q => facProd [ones [1, 3], ones [1, 2]] (unravel [1, 1] (ravel [1, 1] t)).reverse q * r8.rightMats env 1 q b) = 12 := by
          intro s hs
          match s, hs with
          | [s], hs =>
            have h' : ∀ t, InR [1, 1] t → (ones [2, 1, 1] : ND ℝ).get ([s] ++ t) *
              (sumIdx [3, 2] fun q => facProd [ones [1, 3], ones [1, 2]] (unravel [1, 1] (ravel [1, 1] t)).reverse q * r8.rightMats env 1 q b) = 12 := by
              intro t ht
              rw [ones_get (show InR [2, 1, 1] ([s] ++ t) from ⟨hs.1, ht⟩), one_mul, sumIdx_of_const (c := 2)]
              · norm_num
              · intro q hq
                rw [(m1 q hq b hb).1, unravel_ravel ht]
                match q, hq, t, ht with
                | [q1, q2], hq, [t1, t2], ht =>
                  obtain rfl : t1 = 0 := Nat.lt_one_iff.1 ht.1
                  obtain rfl : t2 = 0 := Nat.lt_one_iff.1 ht.2.1
                  show (ones [1, 3] : ND ℝ).get [0, q1] * ((ones [1, 2] : ND ℝ).get [0, q2] * 1) * 2 = 2
                  rw [o2 ht.1 hq.1, o2 ht.1 hq.2.1]; norm_num
            rw [sumIdx_of_const h']
            show (ones [2, 2] : ND ℝ).get [s, i] * 1 * _ = _
            rw [o2 hs.1 hp.1]; norm_num
        rw [sumIdx_of_const h]; norm_num
      have t2 : (sumIdx [3, 2] fun q => (ones [2, 3, 2] : ND ℝ).get ([i] ++ q) * r8.rightMatsDense env 1 q b) = 12 := by
        rw [sumIdx_of_const (c := 2)]
        · norm_num
        · intro q hq
          rw [(m1 q hq b hb).2, ones_get (show InR [2, 3, 2] ([i] ++ q) from ⟨hp.1, hq⟩), one_mul]
      show _ + (_ + 0) = _
      exact (congrArg₂ (· + ·) t1 (congrArg (· + 0) t2)).trans (by norm_num)
  · intro p hp b hb
    match p, hp with
    | [i, j], hp =>
      have t1 : (Tucker.mk [ones [2, 2], ones [1, 3], ones [1, 2]] (ones [2, 1, 1] : ND ℝ)).rightContr (r8.rightMats env) 2 [i, j] b = 4 := by
        show (sumIdx [2, 1] fun s => facProd [ones [2, 2], ones [1, 3]] s [i, j] * sumIdx [1] fun t => (ones [2, 1, 1] : ND ℝ).get (s ++ t) *
          sumIdx [2] fun q => facProd [ones [1, 2]] (unravel [1] (ravel [1] t)).reverse q * r8.rightMats env 2 q b) = 4
        have h : ∀ s, InR [2, 1] s → (facProd [ones [2, 2], ones [1, 3]] s [i, j] * sumIdx [1] fun t => (ones [2, 1, 1] : ND ℝ).get (s ++ t) *
          sumIdx [2] fun q => facProd [ones [1, 2]] (unravel [1] (ravel [1] t)).reverse q * r8.rightMats env 2 q b) = 2 := by
          intro s hs
          match s, hs with
          | [s, s'], hs =>
            have h' : ∀ t, InR [1] t → (ones [2, 1, 1] : ND ℝ).get ([s, s'] ++ t) *
              (sumIdx [2] fun q => facProd [ones [1, 2]] (unravel [1] (ravel [1] t)).reverse q * r8.rightMats env 2 q b) = 2 := by
              intro t ht
              rw [ones_get (show InR [2, 1, 1] ([s, s'] ++ t) from ⟨hs.1, hs.2.1, ht⟩), one_mul, sumIdx_of_const (c := 1)]
              · norm_num
              · intro q hq
                rw [(m2 q hq b hb).1, unravel_ravel ht]
                match q, hq, t, ht with
                | [q1], hq, [t1], ht =>
                  show (ones [1, 2] : ND ℝ).get [t1, q1] * 1 * 1 = 1
                  rw [o2 ht.1 hq.1]; norm_num
            rw [sumIdx_of_const h']
            show (ones [2, 2] : ND ℝ).get [s, i] * ((ones [1, 3] : ND ℝ).get [s', j] * 1) * _ = _
            rw [o2 hs.1 hp.1, o2 hs.2.1 hp.2.1]; norm_num
        rw [sumIdx_of_const h]; norm_num
      have t2 : (sumIdx [2] fun q => (ones [2, 3, 2] : ND ℝ).get ([i, j] ++ q) * r8.rightMatsDense env 2 q b) = 2 := by
        rw [sumIdx_of_const (c := 1)]
        · norm_num
        · intro q hq
          rw [(m2 q hq b hb).2, ones_get (show InR [2, 3, 2] ([i, j] ++ q) from ⟨hp.1, hp.2.1, hq⟩), one_mul]
      show _ + (_ + 0) = _
      exact (congrArg₂ (· + ·) t1 (congrArg (· + 0) t2)).trans (by norm_num)

theorem y61_get (i : List ℕ) (hi : InR [2, 3, 2] i) : y61.toNumpy.get i = 3 := by
  rw [Tensor.get_sum y61_valid]
  have hv : (Tucker.mk [ones [2, 2], ones [1, 3], ones [1, 2]] (ones [2, 1, 1] : ND ℝ)).Valid :=
    (y61_valid _ (List.mem_cons_self ..)).1
  have t1 : (Tucker.mk [ones [2, 2], ones [1, 3], ones [1, 2]] (ones [2, 1, 1] : ND ℝ)).toNumpy.get i = 2 := by
    rw [Tucker.toNumpy_get hv]
    show (sumIdx [2, 1, 1] fun s => (ones [2, 1, 1] : ND ℝ).get s * facProd [ones [2, 2], ones [1, 3], ones [1, 2]] s i) = 2
    rw [sumIdx_of_const (c := 1)]
    · norm_num
    · intro s hs
      rw [ones_get hs]
      match s, hs, i, hi with
      | [s, s', s''], hs, [i, j, k], hi =>
        show 1 * ((ones [2, 2] : ND ℝ).get [s, i] * ((ones [1, 3] : ND ℝ).get [s', j] * ((ones [1, 2] : ND ℝ).get [s'', k] * 1))) = 1
        rw [ones_get (show InR [2, 2] [s, i] from ⟨hs.1, hi.1, trivial⟩),
          ones_get (show InR [1, 3] [s', j] from ⟨hs.2.1, hi.2.1, trivial⟩),
          ones_get (show InR [1, 2] [s'', k] from ⟨hs.2.2.1, hi.2.2.1, trivial⟩)]
        norm_num
  have t2 : (ones [2, 3, 2] : ND ℝ).get i = 1 := ones_get hi
  exact (congrArg₂ (· + ·) t1 (congrArg (· + 0) t2)).trans (by norm_num)

theorem y61_acc {D : DRM ℝ} (h : D.WF ∧ D.toDRMBase.Full) (hs : D.shape = [2, 3, 2])
    (hk : D.data.kind = .tensorTrain) : D.AcceptsT y61 :=
  acceptsT_of h.1 h.2 y61_valid hs.symm fun t _ => supports_tt D.data hk t

theorem l8_mat (env : Env ℝ) : (∀ p, InR [2] p → l8.leftMats env 1 p 0 = 1) ∧ ∀ p, InR [2, 3] p → l8.leftMats env 2 p 0 = 1 := by
  constructor
  · intro p hp
    match p, hp with
    | [i], hp =>
      have hi : i < 2 := hp.1
      simp [DRM.leftMats, DRM.entry, l8, ttVal, ones, ND.ofFn, ND.dim, hi]
  · intro p hp
    match p, hp with
    | [i, j], hp =>
      have hi : i < 2 := hp.1
      have hj : j < 3 := hp.2.1
      simp [DRM.leftMats, DRM.entry, l8, ttVal, ones, ND.ofFn, ND.dim, hi, hj]

/-- every unfolding of `y61` factors through its columns as sketched by `r8` -/
theorem y61_factors (env : Env ℝ) : ∀ mu < y61.shape.length - 1, ∃ B : ℕ → List ℕ → ℝ, ∀ p q, InR (y61.shape.take (mu + 1)) p →
      InR (y61.shape.drop (mu + 1)) q → y61.toNumpy.get (p ++ q)
        = ∑ b ∈ range (r8.rank.reverse.getD mu 0), y61.rightCols env r8 (mu + 1) p b * B b q := by
  obtain ⟨c1, c2⟩ := y61_cols env
  refine two_cases ⟨fun b _ => 3 / 72, fun p q hp hq => ?_⟩ ⟨fun b _ => 3 / 12, fun p q hp hq => ?_⟩
  · rw [y61_get _ (InR.append hp hq)]
    show _ = ∑ b ∈ range 2, _
    rw [sum_range_succ, sum_range_one, c1 p hp 0 (by omega), c1 p hp 1 (by omega)]; norm_num
  · rw [y61_get _ (InR.append hp hq)]
    show _ = ∑ b ∈ range 2, _
    rw [sum_range_succ, sum_range_one, c2 p hp 0 (by omega), c2 p hp 1 (by omega)]; norm_num

/-- `C62_hmt_all`, `C62_orth_all`, `C41_recovery_all` and `C42_recovery_all` apply to the sum `y61` of a Tucker tensor and a
dense array. -/
example : (∃ Y, hmtSketch env61 y61 (.seq [2, 2]) none none (some r8) = .ok Y ∧ Y.toNumpy = y61.toNumpy) ∧
    ∃ Y, orthogonalSketch env61 y61 (.seq [1, 1]) (.seq [2, 2]) { left := some l8, right := some r8 } = .ok (Y, l8, r8) ∧
      Y.toNumpy = y61.toNumpy := by
  have hE : PinvContract env61 := pinvChoice_contract rfl
  have hQ : QRContract env61 := qrChoice_contract rfl
  have p1 : ∀ n ∈ y61.shape, 0 < n := by
    show ∀ n ∈ [2, 3, 2], 0 < n
    decide
  have p2 : ∀ r ∈ r8.rank, 0 < r := by
    show ∀ n ∈ [2, 2], 0 < n
    decide
  have p2' : ∀ r ∈ l8.rank, 0 < r := by
    show ∀ n ∈ [1, 1], 0 < n
    decide
  have hg : ∀ D, some r8 = some D → D.WF ∧ D.toDRMBase.Full ∧ D.transpose = true :=
    fun D h => by cases h; exact ⟨r8_wf.1, r8_wf.2, rfl⟩
  have hkw : ({ left := some l8, right := some r8 } : SketchKw ℝ).Good :=
    ⟨fun D h => by cases h; exact ⟨l8_wf.1, l8_wf.2, rfl⟩, fun D h => by cases h; exact ⟨r8_wf.1, r8_wf.2, rfl⟩⟩
  obtain ⟨c1, c2⟩ := y61_cols env61
  obtain ⟨m1, m2⟩ := l8_mat env61
  constructor
  · obtain ⟨Y, hY⟩ := C42_success_supplied_all env61 hE.lstsq hQ y61 r8 none none y61_valid (y61_acc r8_wf rfl rfl) rfl
      (two_cases (by decide) (by decide))
    exact ⟨Y, hY, C42_recovery_all env61 hE.lstsq hQ y61 _ _ _ _ _ Y r8 hg y61_valid (List.cons_ne_nil _ _) (by decide)
      y61_distinct p1 p2 rfl hY (y61_factors env61)⟩
  · obtain ⟨Y, hY⟩ := C41_success_supplied_all env61 hE.lstsq hQ y61 l8 r8 none none none y61_valid (y61_acc l8_wf rfl rfl)
      (y61_acc r8_wf rfl rfl) rfl rfl (two_cases (by decide) (by decide)) (two_cases (by decide) (by decide))
    refine ⟨Y, hY, C41_recovery_all env61 hE hQ y61 _ _ _ Y l8 r8 hkw y61_valid (List.cons_ne_nil _ _) (by decide)
      y61_distinct p1 p2' hY (y61_factors env61) ?_⟩
    refine two_cases ⟨fun _ _ => 1 / 2, fun p hp b hb => ?_⟩ ⟨fun _ _ => 1 / 6, fun p hp b hb => ?_⟩
    · have e : colsOmega y61.shape (l8.leftMats env61) (y61.rightCols env61 r8) 1 0 b = 72 := by
        show (sumIdx [2] fun p => l8.leftMats env61 1 p 0 * y61.rightCols env61 r8 1 p b) = 72
        rw [sumIdx_of_const (c := 36)]
        · norm_num
        · intro p hp
          rw [m1 p hp, c1 p hp b hb, one_mul]
      show _ = ∑ c ∈ range 1, _
      rw [c1 p hp b hb, sum_range_one, e]; norm_num
    · have e : colsOmega y61.shape (l8.leftMats env61) (y61.rightCols env61 r8) 2 0 b = 36 := by
        show (sumIdx [2, 3] fun p => l8.leftMats env61 2 p 0 * y61.rightCols env61 r8 2 p b) = 36
        rw [sumIdx_of_const (c := 6)]
        · norm_num
        · intro p hp
          rw [m2 p hp, c2 p hp b hb, one_mul]
      show _ = ∑ c ∈ range 1, _
      rw [c2 p hp b hb, sum_range_one, e]; norm_num
end TTS.Props
