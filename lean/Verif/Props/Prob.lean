import Verif.Proofs.ProbSketch
import Verif.Props.Orth

/-!
# Properties C66, C67: exact recovery with probability one

`ContinuousDraws` (the idealised generators), `Env.withDraws`, `Env.DistinctStates`, `DRMKind.Drawn` are in
`Spec/Prob.lean`; `LstsqContract`, `QRContract`, `ND.unfolding` in `Spec/Contract.lean`.
-/

namespace TTS.Props

open TTS Finset MeasureTheory

variable {Ω : Type*} [MeasurableSpace Ω] {P : Measure Ω} {g : Ω → Draw → ℝ}

theorem sketchSeed_lt {K : Type*} [Zero K] (env : Env K) {seed : Option ℕ} (h : seed.getD 0 < 2 ^ 32) :
    env.sketchSeed seed < 2 ^ 32 := by
  cases seed with
  | none => exact Nat.mod_lt _ (by norm_num)
  | some s => exact h

/-- the DRMs of a streaming sketch -/
theorem stream_drms {K : Type*} [CommRing K] {env : Env K} {X : Tensor K} {lrank rrank : RankArg} {seed : Option ℕ}
    {lt rt : Option DRMKind} {S : Sketched K} (hd : 2 ≤ X.shape.length)
    (hl : (ranksOf lrank X.shape.length).length = X.shape.length - 1)
    (hr : (ranksOf rrank X.shape.length).length = X.shape.length - 1) (hseed : seed.getD 0 < 2 ^ 32)
    (h : streamSketch env X lrank rrank { seed := seed, leftType := lt, rightType := rt } = .ok S) :
    ∃ tl tr, ranksLess lrank rrank = .ok tl ∧ ranksLess rrank lrank = .ok tr ∧
      S.left = madeDRM env (lt.getD (rt.getD .tensorTrain)) X.shape false (env.sketchSeed seed)
        (usedRanks X.shape lrank tl) ∧
      S.right = madeDRM env (rt.getD (lt.getD .tensorTrain)) X.shape true
        (env.rightSeed (env.sketchSeed seed) X.shape.length) (usedRanks X.shape rrank tr) := by
  unfold streamSketch at h
  obtain ⟨lb, hlb, h⟩ := andThen_ok h
  obtain ⟨rb, hrb, h⟩ := andThen_ok h
  split at h
  · cases h
  obtain ⟨l, hl', h⟩ := andThen_ok h
  obtain ⟨r, hr', h⟩ := andThen_ok h
  obtain ⟨s, hs, h⟩ := andThen_ok h
  injection h with h
  subst h
  have e1 := leftDRM_made env rb (env.sketchSeed seed) seed lt rt hd hl (sketchSeed_lt env hseed)
  have e2 := rightDRM_made env lb (env.sketchSeed seed) seed lt rt hd hr
  refine ⟨rb, lb, hrb, hlb, ?_, ?_⟩
  · have := hl'.symm.trans e1
    injection this
  · have := hr'.symm.trans e2
    injection this

/-- **C66.** Drawn DRMs (tensor train or dense Gaussian) with ranks that are at least the ranks of the unfoldings of the
tensor: with probability one `stream_sketch` succeeds, and `C_cores` (in each direction) and `to_tt` give exactly the
tensor.  The ranks are those asked for, before trimming.  Formats as in `C33_streaming`. -/
theorem C66_stream (hg : ContinuousDraws P g) (env : Env ℝ) (hE : LstsqContract env)
    (hinv : ∀ r, 0 < r → env.invSqrt r ≠ 0) (X : Tensor ℝ) (lrank rrank : RankArg) (seed : Option ℕ)
    (lt rt : Option DRMKind) (hX : X.Valid) (hne : X.NonEmpty) (hd : 2 ≤ X.shape.length) (hdist : X.Distinct)
    (hx : ∀ t ∈ X.summands, t.RightExact)
    (hl : (ranksOf lrank X.shape.length).length = X.shape.length - 1)
    (hr : (ranksOf rrank X.shape.length).length = X.shape.length - 1)
    (ho : RanksOrdered (X.shape.length - 1) (ranksOf lrank X.shape.length) (ranksOf rrank X.shape.length))
    (hseed : seed.getD 0 < 2 ^ 32)
    (hkl : (lt.getD (rt.getD .tensorTrain)).Drawn) (hkr : (rt.getD (lt.getD .tensorTrain)).Drawn)
    (hsup : ∀ t ∈ X.summands, ∀ D : DRMData ℝ, (D.kind = lt.getD (rt.getD .tensorTrain) ∨
      D.kind = rt.getD (lt.getD .tensorTrain)) → D.supports t = true)
    (hdl : env.DistinctStates (env.sketchSeed seed) X.shape.length)
    (hdr : env.DistinctStates (env.rightSeed (env.sketchSeed seed) X.shape.length) X.shape.length)
    (hrl : ∀ mu < X.shape.length - 1,
      (X.toNumpy.unfolding (mu + 1)).rank ≤ (ranksOf lrank X.shape.length).getD mu 0)
    (hrr : ∀ mu < X.shape.length - 1,
      (X.toNumpy.unfolding (mu + 1)).rank ≤ (ranksOf rrank X.shape.length).getD mu 0) :
    ∀ᵐ ω ∂P, ∃ S, streamSketch (env.withDraws (g ω)) X lrank rrank { seed := seed, leftType := lt, rightType := rt }
        = .ok S ∧
      (∀ dir, dir ≠ Direction.other → ∃ cs, S.cCores (env.withDraws (g ω)) dir = .ok cs ∧ (TT.mk cs).Valid ∧
        (TT.mk cs).toNumpy = X.toNumpy) ∧
      ∃ Y, S.toTT (env.withDraws (g ω)) = .ok Y ∧ Y.Valid ∧ Y.toNumpy = X.toNumpy := by
  have hsh := Tensor.toNumpy_shape hX
  have hd' := hd
  have hl' := hl
  have hr' := hr
  rw [← hsh] at hrl hrr hdl hdr hd' hl' hr'
  have k1 : ∀ᵐ ω ∂P, ∀ tl : Bool, _ := ae_all_iff.2 fun tl =>
    left_keeps hg env hinv X.toNumpy _ hkl (usedRanks X.toNumpy.shape lrank tl)
      (usedRanks_length tl (by omega) hl') (env.sketchSeed seed)
      (fun i hi j hj => hdl i (by omega) j (by omega)) (used_ge X.toNumpy lrank tl (by omega) hl' hrl)
  have k2 : ∀ᵐ ω ∂P, ∀ tr : Bool, _ := ae_all_iff.2 fun tr =>
    right_keeps hg env hinv X.toNumpy _ hkr (usedRanks X.toNumpy.shape rrank tr)
      (usedRanks_length tr (by omega) hr') (env.rightSeed (env.sketchSeed seed) X.toNumpy.shape.length)
      (fun i hi j hj => hdr i (by omega) j (by omega)) (used_ge X.toNumpy rrank tr (by omega) hr' hrr)
  filter_upwards [k1, k2] with ω h1 h2
  obtain ⟨S, hS⟩ := C33_success (env.withDraws (g ω)) X lrank rrank seed lt rt hX hd hl hr ho hseed hsup
  obtain ⟨tl, tr, -, -, e1, e2⟩ := stream_drms hd hl hr hseed hS
  have hkw : SketchKw.Good (K := ℝ) { seed := seed, leftType := lt, rightType := rt } := SketchKw.good_none _ _ _
  refine ⟨S, hS, C39_recovery (env.withDraws (g ω)) hE X lrank rrank _ S hkw hX hne hd hdist hx hS fun mu hmu => ?_⟩
  have e := C33_streaming (env.withDraws (g ω)) X lrank rrank _ S hkw hX hne hd hdist hx hS
  have eL : S.leftRank = usedRanks X.shape lrank tl := by
    show S.left.rank = _
    rw [e1, made_rank _ _ _ _ _ _ (usedRanks_length tl (by omega) hl)]; rfl
  have eR : S.rightRank = usedRanks X.shape rrank tr := by
    show S.right.rank.reverse = _
    rw [e2, made_rank _ _ _ _ _ _ (usedRanks_length tr (by omega) hr)]
    show List.reverse (List.reverse _) = _
    rw [List.reverse_reverse]
  rw [← hsh] at e1 e2 hmu eL eR
  have := omega_rank (L := S.left.leftMats (env.withDraws (g ω))) (R := S.right.rightMats (env.withDraws (g ω)))
    (by rw [e1]; exact h1 tl mu hmu) (by rw [e2]; exact h2 tr mu hmu)
  rw [← eL, ← eR] at this
  rw [← this, e]
  congr 1
  ext a b
  rw [← hsh]
  exact sketchOf_omega_get hmu a.2 b.2

/-- **C66, dense arrays** with any number of modes; the right DRM is dense Gaussian. -/
theorem C66_stream_dense (hg : ContinuousDraws P g) (env : Env ℝ) (hE : LstsqContract env)
    (hinv : ∀ r, 0 < r → env.invSqrt r ≠ 0) (X : ND ℝ) (lrank rrank : RankArg) (seed : Option ℕ)
    (lt rt : Option DRMKind) (hd : 2 ≤ X.shape.length)
    (hl : (ranksOf lrank X.shape.length).length = X.shape.length - 1)
    (hr : (ranksOf rrank X.shape.length).length = X.shape.length - 1)
    (ho : RanksOrdered (X.shape.length - 1) (ranksOf lrank X.shape.length) (ranksOf rrank X.shape.length))
    (hseed : seed.getD 0 < 2 ^ 32)
    (hkl : (lt.getD (rt.getD .tensorTrain)).Drawn) (hkr : rt.getD (lt.getD .tensorTrain) = .denseGaussian)
    (hdl : env.DistinctStates (env.sketchSeed seed) X.shape.length)
    (hrl : ∀ mu < X.shape.length - 1, (X.unfolding (mu + 1)).rank ≤ (ranksOf lrank X.shape.length).getD mu 0)
    (hrr : ∀ mu < X.shape.length - 1, (X.unfolding (mu + 1)).rank ≤ (ranksOf rrank X.shape.length).getD mu 0) :
    ∀ᵐ ω ∂P, ∃ S, streamSketch (env.withDraws (g ω)) (.leaf (.dense X)) lrank rrank
        { seed := seed, leftType := lt, rightType := rt } = .ok S ∧
      (∀ dir, dir ≠ Direction.other → ∃ cs, S.cCores (env.withDraws (g ω)) dir = .ok cs ∧ (TT.mk cs).Valid ∧
        (TT.mk cs).toNumpy = X) ∧
      ∃ Y, S.toTT (env.withDraws (g ω)) = .ok Y ∧ Y.Valid ∧ Y.toNumpy = X := by
  have k1 : ∀ᵐ ω ∂P, ∀ tl : Bool, _ := ae_all_iff.2 fun tl =>
    left_keeps hg env hinv X _ hkl (usedRanks X.shape lrank tl)
      (usedRanks_length tl (by omega) hl) (env.sketchSeed seed)
      (fun i hi j hj => hdl i (by omega) j (by omega)) (used_ge X lrank tl (by omega) hl hrl)
  have k2 : ∀ᵐ ω ∂P, ∀ tr : Bool, _ := ae_all_iff.2 fun tr =>
    right_keeps_dense hg env X (usedRanks X.shape rrank tr) (usedRanks_length tr (by omega) hr)
      (env.rightSeed (env.sketchSeed seed) X.shape.length) (used_ge X rrank tr (by omega) hr hrr)
  filter_upwards [k1, k2] with ω h1 h2
  obtain ⟨S, hS⟩ := C33_success (env.withDraws (g ω)) (.leaf (.dense X)) lrank rrank seed lt rt trivial hd hl hr ho hseed
    (by
      intro t ht D hD
      have ht : t = .dense X := by simpa [Tensor.summands] using ht
      subst ht
      have : D.kind.Drawn := by
        rcases hD with hD | hD
        · rw [hD]; exact hkl
        · rw [hD, hkr]; exact .inr rfl
      cases D <;> simp [DRMData.kind, DRMKind.Drawn] at this <;> rfl)
  obtain ⟨tl, tr, -, -, e1, e2⟩ := stream_drms (X := .leaf (.dense X)) hd hl hr hseed hS
  have hkw : SketchKw.Good (K := ℝ) { seed := seed, leftType := lt, rightType := rt } := SketchKw.good_none _ _ _
  refine ⟨S, hS, C39_dense (env.withDraws (g ω)) hE X lrank rrank _ S hkw hd hS fun mu hmu => ?_⟩
  have e := C33_dense (env.withDraws (g ω)) X lrank rrank _ S hkw hd hS
  have eL : S.leftRank = usedRanks X.shape lrank tl := by
    show S.left.rank = _
    rw [e1]
    exact made_rank _ _ X.shape _ _ _ (usedRanks_length (shape := X.shape) tl (by omega) hl)
  have eR : S.rightRank = usedRanks X.shape rrank tr := by
    show S.right.rank.reverse = _
    rw [e2]
    refine (congrArg List.reverse (made_rank _ _ X.shape _ _ _
      (usedRanks_length (shape := X.shape) tr (by omega) hr))).trans ?_
    show List.reverse (List.reverse _) = _
    rw [List.reverse_reverse]
  rw [hkr] at e2
  have := omega_rank (A := X) (L := S.left.leftMats (env.withDraws (g ω)))
    (R := S.right.rightMatsDense (env.withDraws (g ω)))
    (by rw [e1]; exact h1 tl mu hmu) (by rw [e2]; exact h2 tr mu hmu)
  rw [← eL, ← eR] at this
  rw [← this, e]
  congr 1
  ext a b
  exact sketchOf_omega_get hmu a.2 b.2

/-! ## C67 -/

/-- the DRMs of an orthogonal sketch -/
theorem orth_drms {K : Type*} [CommRing K] {env : Env K} {X : Tensor K} {lrank rrank : RankArg} {seed : Option ℕ}
    {lt rt : Option DRMKind} {Y : TT K} {l r : DRM K} (hd : 2 ≤ X.shape.length)
    (hl : (ranksOf lrank X.shape.length).length = X.shape.length - 1)
    (hr : (ranksOf rrank X.shape.length).length = X.shape.length - 1) (hseed : seed.getD 0 < 2 ^ 32)
    (h : orthogonalSketch env X lrank rrank { seed := seed, leftType := lt, rightType := rt } = .ok (Y, l, r)) :
    l = madeDRM env (lt.getD (rt.getD .tensorTrain)) X.shape false (env.sketchSeed seed)
        (usedRanks X.shape lrank true) ∧
      r = madeDRM env (rt.getD (lt.getD .tensorTrain)) X.shape true
        (env.rightSeed (env.sketchSeed seed) X.shape.length) (usedRanks X.shape rrank false) := by
  unfold orthogonalSketch at h
  obtain ⟨rb, hrb, h⟩ := andThen_ok h
  split at h
  · cases h
  obtain ⟨l, hl', h⟩ := andThen_ok h
  obtain ⟨r, hr', h⟩ := andThen_ok h
  obtain ⟨s, hs, h⟩ := andThen_ok h
  injection h with h
  injection h with _ h
  injection h with h1 h2
  subst h1 h2
  have e1 := leftDRM_made env true (env.sketchSeed seed) seed lt rt hd hl (sketchSeed_lt env hseed)
  have e2 := rightDRM_made env false (env.sketchSeed seed) seed lt rt hd hr
  refine ⟨?_, ?_⟩
  · have := hl'.symm.trans e1
    injection this
  · have := hr'.symm.trans e2
    injection this

theorem used_pos {shape : List ℕ} {rank : RankArg} (hd : 1 ≤ shape.length)
    (hl : (ranksOf rank shape.length).length = shape.length - 1) (p1 : ∀ n ∈ shape, 0 < n)
    (p2 : ∀ r ∈ ranksOf rank shape.length, 0 < r) : ∀ r ∈ usedRanks shape rank true, 0 < r := by
  intro r hr
  obtain ⟨i, hi, rfl⟩ := List.mem_iff_getElem.1 hr
  have hi' : i < (ranksOf rank shape.length).length := by
    rwa [usedRanks_length true hd hl, ← hl] at hi
  have := C03_pos shape (ranksOf rank shape.length) (by omega) p1 p2 i hi'
  rw [← getD_eq hi 0]
  exact this

/-- **C67.** The same for `orthogonal_sketch` (left ranks below the right ones): with probability one it succeeds and
returns exactly the tensor. -/
theorem C67_orthogonal (hg : ContinuousDraws P g) (env : Env ℝ) (hE : LstsqContract env) (hQ : QRContract env)
    (hinv : ∀ r, 0 < r → env.invSqrt r ≠ 0) (X : Tensor ℝ) (lrank rrank : RankArg) (seed : Option ℕ)
    (lt rt : Option DRMKind) (hX : X.Valid) (hne : X.NonEmpty) (hd : 2 ≤ X.shape.length) (hdist : X.Distinct)
    (hx : ∀ t ∈ X.summands, t.RightExact)
    (hl : (ranksOf lrank X.shape.length).length = X.shape.length - 1)
    (hr : (ranksOf rrank X.shape.length).length = X.shape.length - 1)
    (ho : ∀ k < X.shape.length - 1, (ranksOf lrank X.shape.length).getD k 0 < (ranksOf rrank X.shape.length).getD k 0)
    (p1 : ∀ n ∈ X.shape, 0 < n) (p2 : ∀ r ∈ ranksOf lrank X.shape.length, 0 < r) (hseed : seed.getD 0 < 2 ^ 32)
    (hkl : (lt.getD (rt.getD .tensorTrain)).Drawn) (hkr : (rt.getD (lt.getD .tensorTrain)).Drawn)
    (hsup : ∀ t ∈ X.summands, ∀ D : DRMData ℝ, (D.kind = lt.getD (rt.getD .tensorTrain) ∨
      D.kind = rt.getD (lt.getD .tensorTrain)) → D.supports t = true)
    (hdl : env.DistinctStates (env.sketchSeed seed) X.shape.length)
    (hdr : env.DistinctStates (env.rightSeed (env.sketchSeed seed) X.shape.length) X.shape.length)
    (hrl : ∀ mu < X.shape.length - 1,
      (X.toNumpy.unfolding (mu + 1)).rank ≤ (ranksOf lrank X.shape.length).getD mu 0) :
    ∀ᵐ ω ∂P, ∃ Y l r, orthogonalSketch (env.withDraws (g ω)) X lrank rrank
        { seed := seed, leftType := lt, rightType := rt } = .ok (Y, l, r) ∧ Y.Valid ∧ Y.toNumpy = X.toNumpy := by
  have hsh := Tensor.toNumpy_shape hX
  have hd' := hd
  have hl' := hl
  have hr' := hr
  have ho' := ho
  rw [← hsh] at hrl hdl hdr hd' hl' hr' ho'
  have k1 := left_keeps hg env hinv X.toNumpy _ hkl (usedRanks X.toNumpy.shape lrank true)
      (usedRanks_length true (by omega) hl') (env.sketchSeed seed)
      (fun i hi j hj => hdl i (by omega) j (by omega)) (used_ge X.toNumpy lrank true (by omega) hl' hrl)
  have k2 := right_keeps hg env hinv X.toNumpy _ hkr (usedRanks X.toNumpy.shape rrank false)
      (usedRanks_length false (by omega) hr') (env.rightSeed (env.sketchSeed seed) X.toNumpy.shape.length)
      (fun i hi j hj => hdr i (by omega) j (by omega)) (used_ge X.toNumpy rrank false (by omega) hr'
        fun mu hmu => (hrl mu hmu).trans (ho' mu hmu).le)
  filter_upwards [k1, k2] with ω h1 h2
  obtain ⟨Y, l, r, hS⟩ := C41_success (env.withDraws (g ω)) hE hQ X lrank rrank seed lt rt hX hd hdist hx hl hr ho p1 p2
    hseed hsup
  obtain ⟨e1, e2⟩ := orth_drms hd hl hr hseed hS
  have hkw : SketchKw.Good (K := ℝ) { seed := seed, leftType := lt, rightType := rt } := SketchKw.good_none _ _ _
  have eL : l.rank = usedRanks X.shape lrank true := by
    rw [e1, made_rank _ _ _ _ _ _ (usedRanks_length true (by omega) hl)]; rfl
  have eR : r.rank.reverse = usedRanks X.shape rrank false := by
    rw [e2, made_rank _ _ _ _ _ _ (usedRanks_length false (by omega) hr)]
    show List.reverse (List.reverse _) = _
    rw [List.reverse_reverse]
  refine ⟨Y, l, r, hS, (C41_form (env.withDraws (g ω)) hE hQ X lrank rrank _ Y l r hkw hX hne hd hdist hx hS).1,
    C41_recovery (env.withDraws (g ω)) hE hQ X lrank rrank _ Y l r hkw hX hne hd hdist hx p1
      (by rw [eL]; exact used_pos (by omega) hl p1 p2) hS fun mu hmu => ?_⟩
  rw [← hsh] at e1 e2 hmu eL eR
  have := omega_rank (L := l.leftMats (env.withDraws (g ω))) (R := r.rightMats (env.withDraws (g ω)))
    (by rw [e1]; exact h1 mu hmu) (by rw [e2]; exact h2 mu hmu)
  rw [← eL, ← eR] at this
  rw [← this]
  congr 1
  ext a b
  show omegaSpec X.shape _ _ _ _ _ _ = omegaSpec X.toNumpy.shape _ _ _ _ _ _
  rw [hsh]

/-- **C67, dense arrays** with any number of modes; the right DRM is dense Gaussian. -/
theorem C67_orthogonal_dense (hg : ContinuousDraws P g) (env : Env ℝ) (hE : LstsqContract env) (hQ : QRContract env)
    (hinv : ∀ r, 0 < r → env.invSqrt r ≠ 0) (X : ND ℝ) (lrank rrank : RankArg) (seed : Option ℕ)
    (lt rt : Option DRMKind) (hd : 2 ≤ X.shape.length)
    (hl : (ranksOf lrank X.shape.length).length = X.shape.length - 1)
    (hr : (ranksOf rrank X.shape.length).length = X.shape.length - 1)
    (ho : ∀ k < X.shape.length - 1, (ranksOf lrank X.shape.length).getD k 0 < (ranksOf rrank X.shape.length).getD k 0)
    (p1 : ∀ n ∈ X.shape, 0 < n) (p2 : ∀ r ∈ ranksOf lrank X.shape.length, 0 < r) (hseed : seed.getD 0 < 2 ^ 32)
    (hkl : (lt.getD (rt.getD .tensorTrain)).Drawn) (hkr : rt.getD (lt.getD .tensorTrain) = .denseGaussian)
    (hdl : env.DistinctStates (env.sketchSeed seed) X.shape.length)
    (hrl : ∀ mu < X.shape.length - 1, (X.unfolding (mu + 1)).rank ≤ (ranksOf lrank X.shape.length).getD mu 0) :
    ∀ᵐ ω ∂P, ∃ Y l r, orthogonalSketch (env.withDraws (g ω)) (.leaf (.dense X)) lrank rrank
        { seed := seed, leftType := lt, rightType := rt } = .ok (Y, l, r) ∧ Y.Valid ∧ Y.toNumpy = X := by
  have k1 := left_keeps hg env hinv X _ hkl (usedRanks X.shape lrank true)
      (usedRanks_length true (by omega) hl) (env.sketchSeed seed)
      (fun i hi j hj => hdl i (by omega) j (by omega)) (used_ge X lrank true (by omega) hl hrl)
  have k2 := right_keeps_dense hg env X (usedRanks X.shape rrank false) (usedRanks_length false (by omega) hr)
      (env.rightSeed (env.sketchSeed seed) X.shape.length) (used_ge X rrank false (by omega) hr
        fun mu hmu => (hrl mu hmu).trans (ho mu hmu).le)
  filter_upwards [k1, k2] with ω h1 h2
  obtain ⟨Y, l, r, hS⟩ := C41_success_dense (env.withDraws (g ω)) hE hQ X lrank rrank seed lt rt hd hl hr ho p1 p2
    hseed (by
      intro D hD
      have : D.kind.Drawn := by
        rcases hD with hD | hD
        · rw [hD]; exact hkl
        · rw [hD, hkr]; exact .inr rfl
      cases D <;> simp [DRMData.kind, DRMKind.Drawn] at this <;> rfl)
  obtain ⟨e1, e2⟩ := orth_drms (X := .leaf (.dense X)) hd hl hr hseed hS
  have hkw : SketchKw.Good (K := ℝ) { seed := seed, leftType := lt, rightType := rt } := SketchKw.good_none _ _ _
  have eL : l.rank = usedRanks X.shape lrank true := by
    rw [e1]
    exact made_rank _ _ X.shape _ _ _ (usedRanks_length (shape := X.shape) true (by omega) hl)
  have eR : r.rank.reverse = usedRanks X.shape rrank false := by
    rw [e2]
    refine (congrArg List.reverse (made_rank _ _ X.shape _ _ _ (usedRanks_length (shape := X.shape) false (by omega) hr))).trans ?_
    show List.reverse (List.reverse _) = _
    rw [List.reverse_reverse]
  refine ⟨Y, l, r, hS, (C41_form_dense (env.withDraws (g ω)) hE hQ X lrank rrank _ Y l r hkw hd hS).1,
    C41_recovery_dense (env.withDraws (g ω)) hE hQ X lrank rrank _ Y l r hkw hd p1
      (by rw [eL]; exact used_pos (by omega) hl p1 p2) hS fun mu hmu => ?_⟩
  rw [hkr] at e2
  have := omega_rank (A := X) (L := l.leftMats (env.withDraws (g ω))) (R := r.rightMatsDense (env.withDraws (g ω)))
    (by rw [e1]; exact h1 mu hmu) (by rw [e2]; exact h2 mu hmu)
  rw [← eL, ← eR] at this
  exact this

/-- the DRM of `hmt_sketch` -/
theorem hmt_drm {K : Type*} [CommRing K] (env : Env K) {shape : List ℕ} {rank : RankArg} (seed : Option ℕ)
    (kind : Option DRMKind) (hd : 2 ≤ shape.length) (hl : (ranksOf rank shape.length).length = shape.length - 1)
    (hseed : seed.getD 0 < 2 ^ 32) : hmtDRM env shape rank (seed.getD (env.freshSeed % 2 ^ 32)) kind none
      = .ok (madeDRM env (kind.getD .tensorTrain) shape true (env.sketchSeed seed) (usedRanks shape rank true)) := by
  unfold hmtDRM
  simp only [process_used true (by omega) hl]
  exact new_made env _ _ _ _ _ hd (usedRanks_length true (by omega) hl) (sketchSeed_lt env hseed)

/-- **C67.** The same for `hmt_sketch`. -/
theorem C67_hmt (hg : ContinuousDraws P g) (env : Env ℝ) (hE : LstsqContract env) (hQ : QRContract env)
    (hinv : ∀ r, 0 < r → env.invSqrt r ≠ 0) (X : Tensor ℝ) (rank : RankArg) (seed : Option ℕ)
    (kind : Option DRMKind) (hX : X.Valid) (hne : X.NonEmpty) (hd : 2 ≤ X.shape.length) (hdist : X.Distinct)
    (hx : ∀ t ∈ X.summands, t.RightExact)
    (hl : (ranksOf rank X.shape.length).length = X.shape.length - 1)
    (p1 : ∀ n ∈ X.shape, 0 < n) (p2 : ∀ r ∈ ranksOf rank X.shape.length, 0 < r) (hseed : seed.getD 0 < 2 ^ 32)
    (hk : (kind.getD .tensorTrain).Drawn)
    (hsup : ∀ t ∈ X.summands, ∀ D : DRMData ℝ, D.kind = kind.getD .tensorTrain → D.supports t = true)
    (hdr : env.DistinctStates (env.sketchSeed seed) X.shape.length)
    (hr : ∀ mu < X.shape.length - 1, (X.toNumpy.unfolding (mu + 1)).rank ≤ (ranksOf rank X.shape.length).getD mu 0) :
    ∀ᵐ ω ∂P, ∃ Y, hmtSketch (env.withDraws (g ω)) X rank seed kind = .ok Y ∧ Y.Valid ∧ Y.toNumpy = X.toNumpy := by
  have hsh := Tensor.toNumpy_shape hX
  have hd' := hd
  have hl' := hl
  rw [← hsh] at hr hdr hd' hl'
  have k2 := right_keeps hg env hinv X.toNumpy _ hk (usedRanks X.toNumpy.shape rank true)
      (usedRanks_length true (by omega) hl') (env.sketchSeed seed)
      (fun i hi j hj => hdr i (by omega) j (by omega)) (used_ge X.toNumpy rank true (by omega) hl' hr)
  filter_upwards [k2] with ω h2
  obtain ⟨Y, hY⟩ := C42_success (env.withDraws (g ω)) hE hQ X rank seed kind hX hd hdist hx hl p1 p2 hseed hsup
  have hD := hmt_drm (env.withDraws (g ω)) seed kind hd hl hseed
  have hg' : ∀ D : DRM ℝ, (none : Option (DRM ℝ)) = some D → D.WF ∧ D.toDRMBase.Full ∧ D.transpose = true := by
    intro D hD; cases hD
  set D := madeDRM (env.withDraws (g ω)) (kind.getD .tensorTrain) X.shape true ((env.withDraws (g ω)).sketchSeed seed)
    (usedRanks X.shape rank true) with hDdef
  have eR : D.rank.reverse = usedRanks X.shape rank true := by
    rw [hDdef, made_rank _ _ _ _ _ _ (usedRanks_length true (by omega) hl)]
    show List.reverse (List.reverse _) = _
    rw [List.reverse_reverse]
  refine ⟨Y, hY, (C42_form (env.withDraws (g ω)) hE hQ X rank seed kind none false Y hg' hX hne hd hdist hx hY).1,
    C42_recovery (env.withDraws (g ω)) hE hQ X rank seed kind none false Y D hg' hX hne hd hdist hx p1 ?_ hD hY
      fun mu hmu => le_antisymm (Matrix.rank_mul_le_left _ _) ?_⟩
  · intro r hr
    exact used_pos (by omega) hl p1 p2 r (by rw [← eR]; simpa using hr)
  · rw [← hsh] at hmu eR hDdef
    rw [eR, hDdef]
    exact h2 mu hmu

/-- **C67, dense arrays** with any number of modes and a dense Gaussian DRM. -/
theorem C67_hmt_dense (hg : ContinuousDraws P g) (env : Env ℝ) (hE : LstsqContract env) (hQ : QRContract env)
    (X : ND ℝ) (rank : RankArg) (seed : Option ℕ) (hd : 2 ≤ X.shape.length)
    (hl : (ranksOf rank X.shape.length).length = X.shape.length - 1)
    (p1 : ∀ n ∈ X.shape, 0 < n) (p2 : ∀ r ∈ ranksOf rank X.shape.length, 0 < r) (hseed : seed.getD 0 < 2 ^ 32)
    (hr : ∀ mu < X.shape.length - 1, (X.unfolding (mu + 1)).rank ≤ (ranksOf rank X.shape.length).getD mu 0) :
    ∀ᵐ ω ∂P, ∃ Y, hmtSketch (env.withDraws (g ω)) (.leaf (.dense X)) rank seed (some .denseGaussian) = .ok Y ∧ Y.Valid ∧
      Y.toNumpy = X := by
  have k2 := right_keeps_dense hg env X (usedRanks X.shape rank true) (usedRanks_length true (by omega) hl)
      (env.sketchSeed seed) (used_ge X rank true (by omega) hl hr)
  filter_upwards [k2] with ω h2
  obtain ⟨Y, hY⟩ := C42_success_dense (env.withDraws (g ω)) hE hQ X rank seed (some .denseGaussian) hd hl p1 p2 hseed
    (by intro D hD; cases D <;> simp [DRMData.kind] at hD; rfl)
  have hD := hmt_drm (env.withDraws (g ω)) (shape := X.shape) seed (some .denseGaussian) hd hl hseed
  have hg' : ∀ D : DRM ℝ, (none : Option (DRM ℝ)) = some D → D.WF ∧ D.toDRMBase.Full ∧ D.transpose = true := by
    intro D hD; cases hD
  set D := madeDRM (env.withDraws (g ω)) ((some .denseGaussian : Option DRMKind).getD .tensorTrain) X.shape true
    ((env.withDraws (g ω)).sketchSeed seed) (usedRanks X.shape rank true) with hDdef
  have eR : D.rank.reverse = usedRanks X.shape rank true := by
    rw [hDdef, made_rank _ _ _ _ _ _ (usedRanks_length true (by omega) hl)]
    show List.reverse (List.reverse _) = _
    rw [List.reverse_reverse]
  refine ⟨Y, hY, (C42_form_dense (env.withDraws (g ω)) hE hQ X rank seed _ none false Y hg' hd hY).1,
    C42_recovery_dense (env.withDraws (g ω)) hE hQ X rank seed _ none false Y D hg' hd p1 ?_ hD hY
      fun mu hmu => le_antisymm (Matrix.rank_mul_le_left _ _) ?_⟩
  · intro r hr
    exact used_pos (by omega) hl p1 p2 r (by rw [← eR]; simpa using hr)
  · rw [eR, hDdef]
    exact h2 mu hmu

end TTS.Props
