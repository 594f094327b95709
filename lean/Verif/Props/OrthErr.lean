import Verif.Proofs.OrthErrRun

/-!
# Properties C61 and C62: error of `orthogonal_sketch` and `hmt_sketch`

`ProjectsOntoFrame`, `rangeErrSq` and `nystromErrSq` are in `Spec/OrthErr.lean`.
-/

namespace TTS.Props

open TTS Finset

/-! ## C61: both methods project orthogonally -/

/-- **C61, `orthogonal_sketch`.** The result is the orthogonal projection of the tensor onto the tensors that share all
its cores but the last. -/
theorem C61_orth (env : Env ℝ) (hE : LstsqContract env) (hQ : QRContract env) (X : Tensor ℝ) (lrank rrank : RankArg)
    (kw : SketchKw ℝ) (Y : TT ℝ) (l r : DRM ℝ) (hkw : kw.Good) (hX : X.Valid) (hne : X.NonEmpty)
    (hd : 2 ≤ X.shape.length) (hdist : X.Distinct) (hx : ∀ t ∈ X.summands, t.RightExact)
    (p1 : ∀ n ∈ X.shape, 0 < n) (p2 : ∀ r ∈ l.rank, 0 < r)
    (h : orthogonalSketch env X lrank rrank kw = .ok (Y, l, r)) : ProjectsOntoFrame X.toNumpy Y := by
  obtain ⟨hO, -⟩ := orth_inv hkw hX hne hd h
  obtain ⟨n1, n2⟩ := hO.accL.ranks hO.accR
  have hsh := Tensor.toNumpy_shape hX
  have hr := hO.run' hX (streamsWith_exact hX hO.accR hO.dirR hdist hx)
  have hs := hO.accR.shape
  rw [← hsh] at hr n1 n2 hd p1 hs
  exact orthRun_projects hE hQ hr (by omega) n1 n2 (sketchOf_hasShape _ _ _ _ _ _).omega
    (fun b => by rw [rightMats_last env (by rw [hs])]) (positive_fit p1 p2 n1)

/-- **C61, `orthogonal_sketch`, dense arrays** with any number of modes. -/
theorem C61_orth_dense (env : Env ℝ) (hE : LstsqContract env) (hQ : QRContract env) (X : ND ℝ)
    (lrank rrank : RankArg) (kw : SketchKw ℝ) (Y : TT ℝ) (l r : DRM ℝ) (hkw : kw.Good)
    (hd : 2 ≤ X.shape.length) (p1 : ∀ n ∈ X.shape, 0 < n) (p2 : ∀ r ∈ l.rank, 0 < r)
    (h : orthogonalSketch env (.leaf (.dense X)) lrank rrank kw = .ok (Y, l, r)) : ProjectsOntoFrame X Y := by
  obtain ⟨hO, -⟩ := orth_inv (X := .leaf (.dense X)) hkw trivial trivial hd h
  obtain ⟨n1, n2⟩ := hO.accL.ranks hO.accR
  have hr := hO.run' trivial (streamsWith_dense hO.accR hO.dirR)
  have hs : X.shape = r.shape := hO.accR.shape
  exact orthRun_projects (A := X) hE hQ hr (by omega) n1 n2 (sketchOf_hasShape _ _ _ _ _ _).omega
    (fun b => by rw [rightMatsDense_last env (by rw [hs])]) (positive_fit p1 p2 n1)

/-- **C61, `hmt_sketch`.** -/
theorem C61_hmt (env : Env ℝ) (hE : LstsqContract env) (hQ : QRContract env) (X : Tensor ℝ) (rank : RankArg)
    (seed : Option ℕ) (kind : Option DRMKind) (drm : Option (DRM ℝ)) (b : Bool) (Y : TT ℝ)
    (hg : ∀ D, drm = some D → D.WF ∧ D.toDRMBase.Full ∧ D.transpose = true) (hX : X.Valid) (hne : X.NonEmpty)
    (hd : 2 ≤ X.shape.length) (hdist : X.Distinct) (hx : ∀ t ∈ X.summands, t.RightExact)
    (p1 : ∀ n ∈ X.shape, 0 < n) (p2 : ∀ r ∈ Y.rank, 0 < r)
    (h : hmtSketch env X rank seed kind drm b = .ok Y) : ProjectsOntoFrame X.toNumpy Y := by
  obtain ⟨-, D, h0, hO⟩ := hmt_inv hg hX hne hd h
  have hsh := Tensor.toNumpy_shape hX
  have hr := hO.run' hX (streamsWith_exact hX hO.acc hO.dir hdist hx)
  have hs := hO.acc.shape
  have n1 := hO.ranks
  rw [← hsh] at hr n1 hd p1 hs
  obtain ⟨-, -, f3, -⟩ := orth_form hE hQ hd hr n1 n1 rfl
  rw [f3] at p2
  exact orthRun_projects hE hQ hr (by omega) n1 n1 rfl (fun b => by rw [rightMats_last env (by rw [hs])])
    (positive_fit p1 p2 n1)

/-- **C61, `hmt_sketch`, dense arrays** with any number of modes. -/
theorem C61_hmt_dense (env : Env ℝ) (hE : LstsqContract env) (hQ : QRContract env) (X : ND ℝ) (rank : RankArg)
    (seed : Option ℕ) (kind : Option DRMKind) (drm : Option (DRM ℝ)) (b : Bool) (Y : TT ℝ)
    (hg : ∀ D, drm = some D → D.WF ∧ D.toDRMBase.Full ∧ D.transpose = true)
    (hd : 2 ≤ X.shape.length) (p1 : ∀ n ∈ X.shape, 0 < n) (p2 : ∀ r ∈ Y.rank, 0 < r)
    (h : hmtSketch env (.leaf (.dense X)) rank seed kind drm b = .ok Y) : ProjectsOntoFrame X Y := by
  obtain ⟨-, D, h0, hO⟩ := hmt_inv (X := .leaf (.dense X)) hg trivial trivial hd h
  have hr : OrthRun env X.shape X.get (D.rightMatsDense env) D.rank.reverse D.rank.reverse none Y.cores
    X.shape.length := hO.run' trivial (streamsWith_dense hO.acc hO.dir)
  have hs : X.shape = D.shape := hO.acc.shape
  have n1 : D.rank.reverse.length = X.shape.length - 1 := hO.ranks
  obtain ⟨-, -, f3, -⟩ := orth_form hE hQ hd hr n1 n1 rfl
  rw [f3] at p2
  exact orthRun_projects hE hQ hr (by omega) n1 n1 rfl (fun b => by rw [rightMatsDense_last env (by rw [hs])])
    (positive_fit p1 p2 n1)

/-! ## C62: deterministic error bounds -/

theorem hmt_error {env : Env ℝ} (hE : LstsqContract env) (hQ : QRContract env) {A : ND ℝ} {R : Mats ℝ} {lr : List ℕ}
    {Y : TT ℝ} (h : OrthRun env A.shape A.get R lr lr none Y.cores A.shape.length) (hd : 2 ≤ A.shape.length)
    (hl : lr.length = A.shape.length - 1) (hR : ∀ b, R A.shape.length [] b = 1)
    (p1 : ∀ n ∈ A.shape, 0 < n) (p2 : ∀ r ∈ lr, 0 < r) (B : ℕ → ℕ → List ℕ → ℝ) :
    distSq A Y.toNumpy ≤ ∑ mu ∈ range (A.shape.length - 1), rangeErrSq A R (mu + 1) (lr.getD mu 0) (B mu) := by
  refine orthRun_error hE hQ h (by omega) hl hl rfl hR (positive_fit p1 p2 hl) B fun mu hmu => ?_
  have hP := psiOf_shape A.shape A.get R lr lr Y.cores mu
  rw [List.getD_append _ _ _ _ (by omega)] at hP
  obtain ⟨-, -, y, hy⟩ := orthStep_none hQ hP (positive_fit p1 p2 hl mu hmu) (h.step mu (by omega) hmu)
  refine ⟨fun t q => ∑ b ∈ range (lr.getD mu 0), y t b * B mu b q, fun a ha j hj q => ?_⟩
  rw [sum_congr rfl fun t _ => mul_sum _ _ _, sum_comm]
  refine sum_congr rfl fun b hb => ?_
  rw [← hy a ha j hj b (by simpa using hb), sum_mul]
  exact sum_congr rfl fun t _ => (mul_assoc _ _ _).symm

theorem orth_error {env : Env ℝ} (hE : PinvContract env) (hQ : QRContract env) {A : ND ℝ} {L R : Mats ℝ}
    {lr rr : List ℕ} {Y : TT ℝ}
    (h : OrthRun env A.shape A.get R lr rr (some (sketchOf A.shape A.get L R lr rr).omega) Y.cores A.shape.length)
    (hd : 2 ≤ A.shape.length) (hl : lr.length = A.shape.length - 1) (hr : rr.length = A.shape.length - 1)
    (hR : ∀ b, R A.shape.length [] b = 1) (p1 : ∀ n ∈ A.shape, 0 < n) (p2 : ∀ r ∈ lr, 0 < r) :
    ∃ G : ℕ → ℕ → ℕ → ℝ,
      (∀ mu < A.shape.length - 1, ∀ c < lr.getD mu 0, ∀ b < rr.getD mu 0,
        ∑ t ∈ range (rr.getD mu 0), ∑ s ∈ range (lr.getD mu 0), omegaSpec A.shape A.get L R mu c t * G mu t s
          * omegaSpec A.shape A.get L R mu s b = omegaSpec A.shape A.get L R mu c b) ∧
      ∀ V : ℕ → ℕ → List ℕ → ℝ, distSq A Y.toNumpy ≤ ∑ mu ∈ range (A.shape.length - 1),
        rangeErrSq A R (mu + 1) (rr.getD mu 0) fun b q => ∑ c ∈ range (lr.getD mu 0), G mu b c * V mu c q := by
  have hom := (sketchOf_hasShape A.shape A.get L R lr rr).omega
  have key : ∀ mu, ∃ G : ℕ → ℕ → ℝ, mu < A.shape.length - 1 → 
      (∀ c < lr.getD mu 0, ∀ b < rr.getD mu 0,
        ∑ t ∈ range (rr.getD mu 0), ∑ s ∈ range (lr.getD mu 0), omegaSpec A.shape A.get L R mu c t * G t s
          * omegaSpec A.shape A.get L R mu s b = omegaSpec A.shape A.get L R mu c b) ∧
      ∃ y : ℕ → ℕ → ℝ, ∀ i < (1 :: lr).getD mu 0, ∀ j < A.shape.getD mu 0, ∀ c < lr.getD mu 0,
          ∑ t ∈ range (lr.getD mu 0), (Y.cores.getD mu (ND.zeros [])).get [i, j, t] * y t c
            = ∑ b ∈ range (rr.getD mu 0), (psiOf A.shape A.get R lr rr Y.cores mu).get [i, j, b] * G b c := by
    intro mu
    by_cases hmu : mu < A.shape.length - 1
    · have hP := psiOf_shape A.shape A.get R lr rr Y.cores mu
      rw [List.getD_append _ _ _ _ (by omega)] at hP
      obtain ⟨G, g1, g2⟩ := orthStep_pinv hE hQ (hom mu hmu)
      refine ⟨G, fun _ => ⟨fun c hc b hb => ?_, g2 _ _ _ _ hP (positive_fit p1 p2 hl mu hmu) (h.step mu (by omega) hmu)⟩⟩
      have := g1 c hc b hb
      rw [sketchOf_omega_get hmu hc hb] at this
      rw [← this]
      refine sum_congr rfl fun t ht => sum_congr rfl fun s hs => ?_
      rw [sketchOf_omega_get hmu hc (by simpa using ht), sketchOf_omega_get hmu (by simpa using hs) hb]
    · exact ⟨fun _ _ => 0, fun h => absurd h hmu⟩
  choose G hG using key
  refine ⟨G, fun mu hmu => (hG mu hmu).1, fun V => ?_⟩
  refine orthRun_error hE.lstsq hQ h (by omega) hl hr hom hR (positive_fit p1 p2 hl) _ fun mu hmu => ?_
  obtain ⟨-, y, hy⟩ := hG mu hmu
  refine ⟨fun t q => ∑ c ∈ range (lr.getD mu 0), y t c * V mu c q, fun a ha j hj q => ?_⟩
  rw [sum_congr rfl fun t _ => mul_sum _ _ _, sum_comm, sum_congr rfl fun b _ => mul_sum _ _ _, sum_comm (s := range (rr.getD mu 0))]
  refine sum_congr rfl fun c hc => ?_
  simp only [← mul_assoc]
  rw [← sum_mul, ← sum_mul, hy a ha j hj c (by simpa using hc)]

/-- **C62, `hmt_sketch`.** The squared error is at most the sum over the bonds of the squared error of the best
approximation of the unfolding within the column space of the sketched unfolding: for every choice of the coefficient
matrices `B`, `‖X - Y‖² ≤ ∑ ‖X_mu - (X_mu R_mu) B_mu‖²`. -/
theorem C62_hmt (env : Env ℝ) (hE : LstsqContract env) (hQ : QRContract env) (X : Tensor ℝ) (rank : RankArg)
    (seed : Option ℕ) (kind : Option DRMKind) (drm : Option (DRM ℝ)) (b : Bool) (Y : TT ℝ) (D : DRM ℝ)
    (hg : ∀ D, drm = some D → D.WF ∧ D.toDRMBase.Full ∧ D.transpose = true) (hX : X.Valid) (hne : X.NonEmpty)
    (hd : 2 ≤ X.shape.length) (hdist : X.Distinct) (hx : ∀ t ∈ X.summands, t.RightExact)
    (p1 : ∀ n ∈ X.shape, 0 < n) (p2 : ∀ r ∈ D.rank, 0 < r)
    (hD : hmtDRM env X.shape rank (seed.getD (env.freshSeed % 2 ^ 32)) kind drm = .ok D)
    (h : hmtSketch env X rank seed kind drm b = .ok Y) (B : ℕ → ℕ → List ℕ → ℝ) :
    distSq X.toNumpy Y.toNumpy ≤ ∑ mu ∈ range (X.shape.length - 1),
      rangeErrSq X.toNumpy (D.rightMats env) (mu + 1) (D.rank.reverse.getD mu 0) (B mu) := by
  obtain ⟨-, D', h0, hO⟩ := hmt_inv hg hX hne hd h
  rw [hD] at h0
  injection h0 with h0
  subst h0
  have hsh := Tensor.toNumpy_shape hX
  have hr := hO.run' hX (streamsWith_exact hX hO.acc hO.dir hdist hx)
  have hs := hO.acc.shape
  have n1 := hO.ranks
  rw [← hsh] at hr n1 hd p1 hs ⊢
  exact hmt_error hE hQ hr hd n1 (fun b => by rw [rightMats_last env (by rw [hs])]) p1
    (fun _ hr => p2 _ (by simpa using hr)) B

/-- **C62, `hmt_sketch`, dense arrays** with any number of modes. -/
theorem C62_hmt_dense (env : Env ℝ) (hE : LstsqContract env) (hQ : QRContract env) (X : ND ℝ) (rank : RankArg)
    (seed : Option ℕ) (kind : Option DRMKind) (drm : Option (DRM ℝ)) (b : Bool) (Y : TT ℝ) (D : DRM ℝ)
    (hg : ∀ D, drm = some D → D.WF ∧ D.toDRMBase.Full ∧ D.transpose = true)
    (hd : 2 ≤ X.shape.length) (p1 : ∀ n ∈ X.shape, 0 < n) (p2 : ∀ r ∈ D.rank, 0 < r)
    (hD : hmtDRM env X.shape rank (seed.getD (env.freshSeed % 2 ^ 32)) kind drm = .ok D)
    (h : hmtSketch env (.leaf (.dense X)) rank seed kind drm b = .ok Y) (B : ℕ → ℕ → List ℕ → ℝ) :
    distSq X Y.toNumpy ≤ ∑ mu ∈ range (X.shape.length - 1),
      rangeErrSq X (D.rightMatsDense env) (mu + 1) (D.rank.reverse.getD mu 0) (B mu) := by
  obtain ⟨-, D', h0, hO⟩ := hmt_inv (X := .leaf (.dense X)) hg trivial trivial hd h
  have h0 : hmtDRM env X.shape rank (seed.getD (env.freshSeed % 2 ^ 32)) kind drm = .ok D' := h0
  rw [hD] at h0
  injection h0 with h0
  subst h0
  have hr : OrthRun env X.shape X.get (D.rightMatsDense env) D.rank.reverse D.rank.reverse none Y.cores
    X.shape.length := hO.run' trivial (streamsWith_dense hO.acc hO.dir)
  have hs : X.shape = D.shape := hO.acc.shape
  have n1 : D.rank.reverse.length = X.shape.length - 1 := hO.ranks
  exact hmt_error hE hQ hr hd n1 (fun b => by rw [rightMatsDense_last env (by rw [hs])]) p1
    (fun _ hr => p2 _ (by simpa using hr)) B

/-- **C62, `orthogonal_sketch`.** There are generalised inverses `G_mu` of the matrices `Omega_mu = L_mu X_mu R_mu`
such that for all `V_mu` the squared error is at most `∑ ‖X_mu - (X_mu R_mu) G_mu V_mu‖²`; with `V_mu = L_mu X_mu` this is
the sum of the squared errors of the generalised Nyström approximations of the unfoldings. -/
theorem C62_orth (env : Env ℝ) (hE : PinvContract env) (hQ : QRContract env) (X : Tensor ℝ) (lrank rrank : RankArg)
    (kw : SketchKw ℝ) (Y : TT ℝ) (l r : DRM ℝ) (hkw : kw.Good) (hX : X.Valid) (hne : X.NonEmpty)
    (hd : 2 ≤ X.shape.length) (hdist : X.Distinct) (hx : ∀ t ∈ X.summands, t.RightExact)
    (p1 : ∀ n ∈ X.shape, 0 < n) (p2 : ∀ r ∈ l.rank, 0 < r)
    (h : orthogonalSketch env X lrank rrank kw = .ok (Y, l, r)) :
    ∃ G : ℕ → ℕ → ℕ → ℝ,
      (∀ mu < X.shape.length - 1, ∀ c < l.rank.getD mu 0, ∀ b < r.rank.reverse.getD mu 0,
        ∑ t ∈ range (r.rank.reverse.getD mu 0), ∑ s ∈ range (l.rank.getD mu 0),
          omegaSpec X.shape X.toNumpy.get (l.leftMats env) (r.rightMats env) mu c t * G mu t s
          * omegaSpec X.shape X.toNumpy.get (l.leftMats env) (r.rightMats env) mu s b
        = omegaSpec X.shape X.toNumpy.get (l.leftMats env) (r.rightMats env) mu c b) ∧
      (∀ V : ℕ → ℕ → List ℕ → ℝ, distSq X.toNumpy Y.toNumpy ≤ ∑ mu ∈ range (X.shape.length - 1),
        rangeErrSq X.toNumpy (r.rightMats env) (mu + 1) (r.rank.reverse.getD mu 0)
          fun b q => ∑ c ∈ range (l.rank.getD mu 0), G mu b c * V mu c q) ∧
      distSq X.toNumpy Y.toNumpy ≤ ∑ mu ∈ range (X.shape.length - 1),
        nystromErrSq X.toNumpy (l.leftMats env) (r.rightMats env) (mu + 1) (l.rank.getD mu 0)
          (r.rank.reverse.getD mu 0) (G mu) := by
  obtain ⟨hO, -⟩ := orth_inv hkw hX hne hd h
  obtain ⟨n1, n2⟩ := hO.accL.ranks hO.accR
  have hsh := Tensor.toNumpy_shape hX
  have hr := hO.run' hX (streamsWith_exact hX hO.accR hO.dirR hdist hx)
  have hs := hO.accR.shape
  rw [← hsh] at hr n1 n2 hd p1 hs ⊢
  obtain ⟨G, g1, g2⟩ := orth_error hE hQ hr hd n1 n2 (fun b => by rw [rightMats_last env (by rw [hs])]) p1 p2
  exact ⟨G, g1, g2, g2 fun mu c q => leftSketch X.toNumpy (l.leftMats env) (mu + 1) c q⟩

/-- **C62, `orthogonal_sketch`, dense arrays** with any number of modes. -/
theorem C62_orth_dense (env : Env ℝ) (hE : PinvContract env) (hQ : QRContract env) (X : ND ℝ)
    (lrank rrank : RankArg) (kw : SketchKw ℝ) (Y : TT ℝ) (l r : DRM ℝ) (hkw : kw.Good)
    (hd : 2 ≤ X.shape.length) (p1 : ∀ n ∈ X.shape, 0 < n) (p2 : ∀ r ∈ l.rank, 0 < r)
    (h : orthogonalSketch env (.leaf (.dense X)) lrank rrank kw = .ok (Y, l, r)) :
    ∃ G : ℕ → ℕ → ℕ → ℝ,
      (∀ mu < X.shape.length - 1, ∀ c < l.rank.getD mu 0, ∀ b < r.rank.reverse.getD mu 0,
        ∑ t ∈ range (r.rank.reverse.getD mu 0), ∑ s ∈ range (l.rank.getD mu 0),
          omegaSpec X.shape X.get (l.leftMats env) (r.rightMatsDense env) mu c t * G mu t s
          * omegaSpec X.shape X.get (l.leftMats env) (r.rightMatsDense env) mu s b
        = omegaSpec X.shape X.get (l.leftMats env) (r.rightMatsDense env) mu c b) ∧
      (∀ V : ℕ → ℕ → List ℕ → ℝ, distSq X Y.toNumpy ≤ ∑ mu ∈ range (X.shape.length - 1),
        rangeErrSq X (r.rightMatsDense env) (mu + 1) (r.rank.reverse.getD mu 0)
          fun b q => ∑ c ∈ range (l.rank.getD mu 0), G mu b c * V mu c q) ∧
      distSq X Y.toNumpy ≤ ∑ mu ∈ range (X.shape.length - 1),
        nystromErrSq X (l.leftMats env) (r.rightMatsDense env) (mu + 1) (l.rank.getD mu 0)
          (r.rank.reverse.getD mu 0) (G mu) := by
  obtain ⟨hO, -⟩ := orth_inv (X := .leaf (.dense X)) hkw trivial trivial hd h
  obtain ⟨n1, n2⟩ := hO.accL.ranks hO.accR
  have hr := hO.run' trivial (streamsWith_dense hO.accR hO.dirR)
  have hs : X.shape = r.shape := hO.accR.shape
  obtain ⟨G, g1, g2⟩ := orth_error (A := X) hE hQ hr hd n1 n2
    (fun b => by rw [rightMatsDense_last env (by rw [hs])]) p1 p2
  exact ⟨G, g1, g2, g2 fun mu c q => leftSketch X (l.leftMats env) (mu + 1) c q⟩

/-! ### Examples

A sparse tensor of shape `2 × 3 × 2` with two entries (all unfoldings have rank two) sketched with rank one. -/

noncomputable def env61 : Env ℝ := { env8 with lstsq := pinvChoice }

noncomputable def x61 : Sparse ℝ := ⟨[2, 3, 2], [([1, 2, 0], 3), ([0, 0, 1], 1)]⟩

theorem x61_valid : (Tensor.leaf (.sparse x61)).Valid := by
  intro e he
  simp only [x61, List.mem_cons, List.not_mem_nil, or_false] at he
  rcases he with rfl | rfl <;> simp [x61]

theorem x61_distinct : (Tensor.leaf (.sparse x61)).Distinct := by
  simp [Tensor.Distinct, Leaf.Distinct, Sparse.Distinct, x61]

theorem x61_exact : ∀ t ∈ (Tensor.leaf (.sparse x61)).summands, t.RightExact := by
  intro t ht
  simp only [Tensor.summands, List.mem_cons, List.not_mem_nil, or_false] at ht
  subst ht; trivial

theorem x61_acc {D : DRM ℝ} (h : D.WF ∧ D.toDRMBase.Full) (hs : D.shape = [2, 3, 2])
    (h2 : D.data.supports (.sparse x61) = true) : D.AcceptsT (.leaf (.sparse x61)) :=
  acceptsT_of h.1 h.2 x61_valid hs.symm fun t ht => by
    simp only [Tensor.summands, List.mem_cons, List.not_mem_nil, or_false] at ht
    subst ht; exact h2

/-- `C61_orth` and `C62_orth` apply. -/
example : ∃ Y, orthogonalSketch env61 (.leaf (.sparse x61)) (.seq [1, 1]) (.seq [2, 2])
    { left := some l8, right := some r8 } = .ok (Y, l8, r8) ∧ ProjectsOntoFrame x61.toNumpy Y ∧
    ∃ G : ℕ → ℕ → ℕ → ℝ, distSq x61.toNumpy Y.toNumpy ≤ ∑ mu ∈ range 2,
        nystromErrSq x61.toNumpy (l8.leftMats env61) (r8.rightMats env61) (mu + 1) 1 2 (G mu) := by
  have hE : PinvContract env61 := pinvChoice_contract rfl
  have hQ : QRContract env61 := qrChoice_contract rfl
  obtain ⟨Y, hY⟩ := C41_success_supplied env61 hE.lstsq hQ (.leaf (.sparse x61)) l8 r8 none none none x61_valid
    x61_distinct x61_exact (x61_acc l8_wf rfl rfl) (x61_acc r8_wf rfl rfl) rfl rfl
    (two_cases (by decide) (by decide)) (two_cases (by decide) (by decide))
  have hkw : ({ left := some l8, right := some r8 } : SketchKw ℝ).Good :=
    ⟨fun D h => by cases h; exact ⟨l8_wf.1, l8_wf.2, rfl⟩, fun D h => by cases h; exact ⟨r8_wf.1, r8_wf.2, rfl⟩⟩
  have p1 : ∀ n ∈ (Tensor.leaf (.sparse x61)).shape, 0 < n := by
    show ∀ n ∈ [2, 3, 2], 0 < n
    decide
  have p2 : ∀ r ∈ l8.rank, 0 < r := by
    show ∀ n ∈ [1, 1], 0 < n
    decide
  obtain ⟨G, -, -, hG⟩ := C62_orth env61 hE hQ _ _ _ _ Y l8 r8 hkw x61_valid trivial (by decide) x61_distinct x61_exact
    p1 p2 hY
  refine ⟨Y, hY, C61_orth env61 hE.lstsq hQ _ _ _ _ Y l8 r8 hkw x61_valid trivial (by decide) x61_distinct x61_exact
    p1 p2 hY, G, hG.trans (le_of_eq (sum_congr rfl fun mu hmu => ?_))⟩
  have hmu : mu < 2 := by simpa using hmu
  obtain rfl | rfl : mu = 0 ∨ mu = 1 := by omega
  · rfl
  · rfl

/-- `C61_hmt` and `C62_hmt` apply. -/
example : ∃ Y, hmtSketch env61 (.leaf (.sparse x61)) (.seq [2, 2]) none none (some r8) = .ok Y ∧
    ProjectsOntoFrame x61.toNumpy Y ∧ ∀ B : ℕ → ℕ → List ℕ → ℝ, distSq x61.toNumpy Y.toNumpy ≤ ∑ mu ∈ range 2,
      rangeErrSq x61.toNumpy (r8.rightMats env61) (mu + 1) (r8.rank.reverse.getD mu 0) (B mu) := by
  have hE : LstsqContract env61 := (pinvChoice_contract rfl).lstsq
  have hQ : QRContract env61 := qrChoice_contract rfl
  obtain ⟨Y, hY⟩ := C42_success_supplied env61 hE hQ (.leaf (.sparse x61)) r8 none none x61_valid x61_distinct
    x61_exact (x61_acc r8_wf rfl rfl) rfl (two_cases (by decide) (by decide))
  have hg : ∀ D, some r8 = some D → D.WF ∧ D.toDRMBase.Full ∧ D.transpose = true :=
    fun D h => by cases h; exact ⟨r8_wf.1, r8_wf.2, rfl⟩
  have p1 : ∀ n ∈ (Tensor.leaf (.sparse x61)).shape, 0 < n := by
    show ∀ n ∈ [2, 3, 2], 0 < n
    decide
  have p2 : ∀ r ∈ r8.rank, 0 < r := by
    show ∀ n ∈ [2, 2], 0 < n
    decide
  obtain ⟨-, -, -, f3, -⟩ := C42_form env61 hE hQ (.leaf (.sparse x61)) _ _ _ _ _ Y hg x61_valid trivial (by decide)
    x61_distinct x61_exact hY
  have f3 : Y.rank = [2, 2] := (f3 r8 rfl).1
  exact ⟨Y, hY, C61_hmt env61 hE hQ _ _ _ _ _ _ Y hg x61_valid trivial (by decide) x61_distinct x61_exact p1
    (by rw [f3]; decide) hY, C62_hmt env61 hE hQ _ _ _ _ _ _ Y r8 hg x61_valid trivial (by decide) x61_distinct x61_exact
    p1 p2 rfl hY⟩

end TTS.Props
