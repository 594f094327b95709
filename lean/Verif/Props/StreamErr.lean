import Verif.Props.GaussOrthErr
import Verif.Proofs.StreamMeanDRM

/-!
# C80: mean errors of `stream_sketch` with dense Gaussian DRMs

`MPContract` is in `Spec/Nystrom.lean`, `GaussianDraws`, `MeanErrSq`, `Oversampled`, `StreamsDistinct`, `growth` and
`bondMean` in `Spec/GaussErr.lean`.
-/

namespace TTS.Props

open TTS Finset MeasureTheory
open scoped ENNReal

variable {Ω : Type*} [MeasurableSpace Ω] {P : Measure Ω} {g : Ω → Draw → ℝ}

/-- from the product of the oblique projections to the tensor train -/
theorem stream_meanErr (env : Env ℝ) (hE : MPContract env) (X : Tensor ℝ)
    (lrank rrank : RankArg) (seed : Option ℕ) (hX : X.Valid) (hne : X.NonEmpty) (hd : 2 ≤ X.shape.length)
    (hdist : X.Distinct) (hx : ∀ t ∈ X.summands, t.RightExact)
    (hl : (ranksOf lrank X.shape.length).length = X.shape.length - 1)
    (hr : (ranksOf rrank X.shape.length).length = X.shape.length - 1)
    (ho : RanksOrdered (X.shape.length - 1) (ranksOf lrank X.shape.length) (ranksOf rrank X.shape.length))
    (hseed : seed.getD 0 < 2 ^ 32)
    (hsup : ∀ t ∈ X.summands, ∀ D : DRMData ℝ, D.kind = .denseGaussian → D.supports t = true)
    {tl tr : Bool} (htl : ranksLess lrank rrank = .ok tl) (htr : ranksLess rrank lrank = .ok tr) {v : ℝ}
    (h : ∃ E : Ω → ℝ≥0∞, Measurable E ∧ ∫⁻ ω, E ω ∂P ≤ ENNReal.ofReal v ∧ ∀ᵐ ω ∂P, ∀ G,
      PinvsOf X.toNumpy
        ((madeDRM (env.withDraws (g ω)) .denseGaussian X.shape false (env.sketchSeed seed) (usedRanks X.shape lrank tl)).leftMats
          (env.withDraws (g ω)))
        ((madeDRM (env.withDraws (g ω)) .denseGaussian X.shape true (env.rightSeed (env.sketchSeed seed) X.shape.length)
          (usedRanks X.shape rrank tr)).rightMats (env.withDraws (g ω)))
        (usedRanks X.shape lrank tl) (usedRanks X.shape rrank tr) G →
      ENNReal.ofReal (distSq X.toNumpy (obliques X.toNumpy
        ((madeDRM (env.withDraws (g ω)) .denseGaussian X.shape false (env.sketchSeed seed) (usedRanks X.shape lrank tl)).leftMats
          (env.withDraws (g ω)))
        ((madeDRM (env.withDraws (g ω)) .denseGaussian X.shape true (env.rightSeed (env.sketchSeed seed) X.shape.length)
          (usedRanks X.shape rrank tr)).rightMats (env.withDraws (g ω)))
        (usedRanks X.shape lrank tl) (usedRanks X.shape rrank tr) G (X.toNumpy.shape.length - 1) X.toNumpy)) ≤ E ω) :
    MeanErrSq P (fun ω => (streamSketch (env.withDraws (g ω)) X lrank rrank
        { seed := seed, leftType := some .denseGaussian, rightType := some .denseGaussian }).bind
          fun S => S.toTT (env.withDraws (g ω))) X.toNumpy v := by
  have hkw : SketchKw.Good (K := ℝ) { seed := seed, leftType := some .denseGaussian, rightType := some .denseGaussian } :=
    SketchKw.good_none _ _ _
  have hS := fun ω => C33_success (env.withDraws (g ω)) X lrank rrank seed (some .denseGaussian)
    (some .denseGaussian) hX hd hl hr ho hseed (fun t ht D hD => hsup t ht D (hD.elim id id))
  have hY := fun ω S hS => (C70_stream (env.withDraws (g ω)) hE X lrank rrank _ S hkw hX hne hd hdist hx hS).2
  refine ⟨fun ω => ?_, ?_⟩
  · obtain ⟨S, h1⟩ := hS ω
    obtain ⟨Y, h2, -⟩ := hY ω S h1
    exact ⟨Y, by rw [h1]; exact h2⟩
  obtain ⟨E, e1, e2, e3⟩ := h
  refine ⟨E, e1, e2, ?_⟩
  filter_upwards [e3] with ω hω Y' hY'
  obtain ⟨S, h1⟩ := hS ω
  obtain ⟨Y, h2, -, h3⟩ := hY ω S h1
  obtain rfl : Y = Y' := by
    rw [h1] at hY'
    have hY' : S.toTT (env.withDraws (g ω)) = .ok Y' := hY'
    rw [h2] at hY'
    injection hY'
  obtain ⟨tl', tr', t1, t2, d1, d2⟩ := stream_drms hd hl hr hseed h1
  obtain rfl : tl' = tl := by rw [htl] at t1; injection t1 with t1; exact t1.symm
  obtain rfl : tr' = tr := by rw [htr] at t2; injection t2 with t2; exact t2.symm
  have eL : S.leftRank = usedRanks X.shape lrank tl' := by
    show S.left.rank = _
    rw [d1, made_rank _ _ _ _ _ _ (usedRanks_length tl' (by omega) hl)]; rfl
  have eR : S.rightRank = usedRanks X.shape rrank tr' := by
    show S.right.rank.reverse = _
    rw [d2, made_rank _ _ _ _ _ _ (usedRanks_length tr' (by omega) hr)]
    show List.reverse (List.reverse _) = _
    rw [List.reverse_reverse]
  rw [eL, eR, d1, d2] at h3
  obtain ⟨G, hG⟩ := pinvs_exist X.toNumpy
    ((madeDRM (env.withDraws (g ω)) .denseGaussian X.shape false (env.sketchSeed seed) (usedRanks X.shape lrank tl')).leftMats
      (env.withDraws (g ω)))
    ((madeDRM (env.withDraws (g ω)) .denseGaussian X.shape true (env.rightSeed (env.sketchSeed seed) X.shape.length)
      (usedRanks X.shape rrank tr')).rightMats (env.withDraws (g ω)))
    (usedRanks X.shape lrank tl') (usedRanks X.shape rrank tr')
  rw [h3.product G hG]
  exact hω G hG

/-- the same for dense arrays with any number of modes -/
theorem stream_meanErr_dense (env : Env ℝ) (hE : MPContract env) (X : ND ℝ)
    (lrank rrank : RankArg) (seed : Option ℕ) (hd : 2 ≤ X.shape.length)
    (hl : (ranksOf lrank X.shape.length).length = X.shape.length - 1)
    (hr : (ranksOf rrank X.shape.length).length = X.shape.length - 1)
    (ho : RanksOrdered (X.shape.length - 1) (ranksOf lrank X.shape.length) (ranksOf rrank X.shape.length))
    (hseed : seed.getD 0 < 2 ^ 32)
    {tl tr : Bool} (htl : ranksLess lrank rrank = .ok tl) (htr : ranksLess rrank lrank = .ok tr) {v : ℝ}
    (h : ∃ E : Ω → ℝ≥0∞, Measurable E ∧ ∫⁻ ω, E ω ∂P ≤ ENNReal.ofReal v ∧ ∀ᵐ ω ∂P, ∀ G,
      PinvsOf X
        ((madeDRM (env.withDraws (g ω)) .denseGaussian X.shape false (env.sketchSeed seed) (usedRanks X.shape lrank tl)).leftMats
          (env.withDraws (g ω)))
        ((madeDRM (env.withDraws (g ω)) .denseGaussian X.shape true (env.rightSeed (env.sketchSeed seed) X.shape.length)
          (usedRanks X.shape rrank tr)).rightMatsDense (env.withDraws (g ω)))
        (usedRanks X.shape lrank tl) (usedRanks X.shape rrank tr) G →
      ENNReal.ofReal (distSq X (obliques X
        ((madeDRM (env.withDraws (g ω)) .denseGaussian X.shape false (env.sketchSeed seed) (usedRanks X.shape lrank tl)).leftMats
          (env.withDraws (g ω)))
        ((madeDRM (env.withDraws (g ω)) .denseGaussian X.shape true (env.rightSeed (env.sketchSeed seed) X.shape.length)
          (usedRanks X.shape rrank tr)).rightMatsDense (env.withDraws (g ω)))
        (usedRanks X.shape lrank tl) (usedRanks X.shape rrank tr) G (X.shape.length - 1) X)) ≤ E ω) :
    MeanErrSq P (fun ω => (streamSketch (env.withDraws (g ω)) (.leaf (.dense X)) lrank rrank
        { seed := seed, leftType := some .denseGaussian, rightType := some .denseGaussian }).bind
          fun S => S.toTT (env.withDraws (g ω))) X v := by
  have hkw : SketchKw.Good (K := ℝ) { seed := seed, leftType := some .denseGaussian, rightType := some .denseGaussian } :=
    SketchKw.good_none _ _ _
  have hS := fun ω => C33_success (env.withDraws (g ω)) (.leaf (.dense X)) lrank rrank seed (some .denseGaussian)
    (some .denseGaussian) trivial hd hl hr ho hseed (by
      intro t ht D hD
      have hD : D.kind = .denseGaussian := hD.elim id id
      obtain rfl : t = .dense X := by simpa [Tensor.summands] using ht
      cases D <;> simp [DRMData.kind] at hD; rfl)
  have hY := fun ω S hS => (C70_stream_dense (env.withDraws (g ω)) hE X lrank rrank _ S hkw hd hS).2
  refine ⟨fun ω => ?_, ?_⟩
  · obtain ⟨S, h1⟩ := hS ω
    obtain ⟨Y, h2, -⟩ := hY ω S h1
    exact ⟨Y, by rw [h1]; exact h2⟩
  obtain ⟨E, e1, e2, e3⟩ := h
  refine ⟨E, e1, e2, ?_⟩
  filter_upwards [e3] with ω hω Y' hY'
  obtain ⟨S, h1⟩ := hS ω
  obtain ⟨Y, h2, -, h3⟩ := hY ω S h1
  obtain rfl : Y = Y' := by
    rw [h1] at hY'
    have hY' : S.toTT (env.withDraws (g ω)) = .ok Y' := hY'
    rw [h2] at hY'
    injection hY'
  obtain ⟨tl', tr', t1, t2, d1, d2⟩ := stream_drms (X := .leaf (.dense X)) hd hl hr hseed h1
  obtain rfl : tl' = tl := by rw [htl] at t1; injection t1 with t1; exact t1.symm
  obtain rfl : tr' = tr := by rw [htr] at t2; injection t2 with t2; exact t2.symm
  have eL : S.leftRank = usedRanks X.shape lrank tl' := by
    show S.left.rank = _
    rw [d1]
    refine (made_rank _ _ X.shape _ _ _ (usedRanks_length tl' (by omega) hl)).trans ?_
    rfl
  have eR : S.rightRank = usedRanks X.shape rrank tr' := by
    show S.right.rank.reverse = _
    rw [d2]
    refine (congrArg List.reverse (made_rank _ _ X.shape _ _ _ (usedRanks_length tr' (by omega) hr))).trans ?_
    show List.reverse (List.reverse _) = _
    rw [List.reverse_reverse]
  rw [eL, eR, d1, d2] at h3
  obtain ⟨G, hG⟩ := pinvs_exist X
    ((madeDRM (env.withDraws (g ω)) .denseGaussian X.shape false (env.sketchSeed seed) (usedRanks X.shape lrank tl')).leftMats
      (env.withDraws (g ω)))
    ((madeDRM (env.withDraws (g ω)) .denseGaussian X.shape true (env.rightSeed (env.sketchSeed seed) X.shape.length)
      (usedRanks X.shape rrank tr')).rightMatsDense (env.withDraws (g ω)))
    (usedRanks X.shape lrank tl') (usedRanks X.shape rrank tr')
  rw [h3.product G hG]
  exact hω G hG

theorem ranksLess_of_lt {a b : RankArg} {d : ℕ} (hd : 2 ≤ d) (ha : (ranksOf a d).length = d - 1)
    (hb : (ranksOf b d).length = d - 1) (h : ∀ k < d - 1, (ranksOf a d).getD k 0 < (ranksOf b d).getD k 0) :
    ranksLess a b = .ok true ∧ ranksLess b a = .ok false := by
  constructor
  · rw [ranksLess_eq hd ha hb, decide_eq_true h]
  · rw [ranksLess_eq hd hb ha, decide_eq_false]
    intro h'
    have := h 0 (by omega)
    have := h' 0 (by omega)
    omega

/-- **C80.** `stream_sketch` with dense Gaussian DRMs whose left ranks `l` are below the right ranks `r`, and independent
standard normal draws: whatever arrays `B_mu` whose `mu`-th unfolding has rank at most `k_mu` one compares with, the mean
squared error of `to_tt` is at most
`(∑_mu √((∏_{nu > mu} max 1 (l / (r - l - 1))) (1 + l / (r - l - 1)) (1 + k / (l - k - 1)) ‖X - B_mu‖²))²`. -/
theorem C80 (hg : GaussianDraws P g) (env : Env ℝ) (hE : MPContract env) (X : Tensor ℝ)
    (lrank rrank : RankArg) (seed : Option ℕ) (hX : X.Valid) (hne : X.NonEmpty) (hd : 2 ≤ X.shape.length)
    (hdist : X.Distinct) (hx : ∀ t ∈ X.summands, t.RightExact)
    (hl : (ranksOf lrank X.shape.length).length = X.shape.length - 1)
    (hr : (ranksOf rrank X.shape.length).length = X.shape.length - 1)
    (ho : ∀ k < X.shape.length - 1, (ranksOf lrank X.shape.length).getD k 0 < (ranksOf rrank X.shape.length).getD k 0)
    (hseed : seed.getD 0 < 2 ^ 32)
    (hsup : ∀ t ∈ X.summands, ∀ D : DRMData ℝ, D.kind = .denseGaussian → D.supports t = true)
    (hap : env.StreamsDistinct X.shape (env.sketchSeed seed) (env.rightSeed (env.sketchSeed seed) X.shape.length))
    (B : ℕ → ND ℝ) (k : ℕ → ℕ)
    (hB : ∀ mu < X.shape.length - 1, Oversampled X.toNumpy (B mu) mu (k mu)
      ((trimRanks X.shape (ranksOf lrank X.shape.length)).getD mu 0))
    (hover : ∀ mu < X.shape.length - 1, (trimRanks X.shape (ranksOf lrank X.shape.length)).getD mu 0 + 2
      ≤ (ranksOf rrank X.shape.length).getD mu 0) :
    MeanErrSq P (fun ω => (streamSketch (env.withDraws (g ω)) X lrank rrank
        { seed := seed, leftType := some .denseGaussian, rightType := some .denseGaussian }).bind
          fun S => S.toTT (env.withDraws (g ω))) X.toNumpy
      ((∑ mu ∈ range (X.shape.length - 1), √((∏ nu ∈ Ico (mu + 1) (X.shape.length - 1),
          growth ((trimRanks X.shape (ranksOf lrank X.shape.length)).getD nu 0) ((ranksOf rrank X.shape.length).getD nu 0))
        * bondMean ((trimRanks X.shape (ranksOf lrank X.shape.length)).getD mu 0) ((ranksOf rrank X.shape.length).getD mu 0)
          (k mu) (distSq X.toNumpy (B mu)))) ^ 2) := by
  obtain ⟨t1, t2⟩ := ranksLess_of_lt hd hl hr ho
  refine stream_meanErr env hE X lrank rrank seed hX hne hd hdist hx hl hr (.inl ho) hseed hsup t1 t2 ?_
  have hsh := Tensor.toNumpy_shape hX
  have hL := leftMats_gauss env X.shape (usedRanks X.shape lrank true) (env.sketchSeed seed)
  have hR := rightMats_gauss env X.shape (usedRanks X.shape rrank false)
    (env.rightSeed (env.sketchSeed seed) X.shape.length) (usedRanks_length false (by omega) hr)
  rw [← hsh] at hR hL
  have := stream_mean_right hg hL hR (by rw [hsh]; exact hap) B k (by rw [hsh]; exact hB) (by rw [hsh]; exact hover)
  rw [hsh] at this
  rw [hsh]
  exact this

/-- **C80, dense arrays** with any number of modes. -/
theorem C80_dense (hg : GaussianDraws P g) (env : Env ℝ) (hE : MPContract env) (X : ND ℝ)
    (lrank rrank : RankArg) (seed : Option ℕ) (hd : 2 ≤ X.shape.length)
    (hl : (ranksOf lrank X.shape.length).length = X.shape.length - 1)
    (hr : (ranksOf rrank X.shape.length).length = X.shape.length - 1)
    (ho : ∀ k < X.shape.length - 1, (ranksOf lrank X.shape.length).getD k 0 < (ranksOf rrank X.shape.length).getD k 0)
    (hseed : seed.getD 0 < 2 ^ 32)
    (hap : env.StreamsDistinct X.shape (env.sketchSeed seed) (env.rightSeed (env.sketchSeed seed) X.shape.length))
    (B : ℕ → ND ℝ) (k : ℕ → ℕ)
    (hB : ∀ mu < X.shape.length - 1, Oversampled X (B mu) mu (k mu)
      ((trimRanks X.shape (ranksOf lrank X.shape.length)).getD mu 0))
    (hover : ∀ mu < X.shape.length - 1, (trimRanks X.shape (ranksOf lrank X.shape.length)).getD mu 0 + 2
      ≤ (ranksOf rrank X.shape.length).getD mu 0) :
    MeanErrSq P (fun ω => (streamSketch (env.withDraws (g ω)) (.leaf (.dense X)) lrank rrank
        { seed := seed, leftType := some .denseGaussian, rightType := some .denseGaussian }).bind
          fun S => S.toTT (env.withDraws (g ω))) X
      ((∑ mu ∈ range (X.shape.length - 1), √((∏ nu ∈ Ico (mu + 1) (X.shape.length - 1),
          growth ((trimRanks X.shape (ranksOf lrank X.shape.length)).getD nu 0) ((ranksOf rrank X.shape.length).getD nu 0))
        * bondMean ((trimRanks X.shape (ranksOf lrank X.shape.length)).getD mu 0) ((ranksOf rrank X.shape.length).getD mu 0)
          (k mu) (distSq X (B mu)))) ^ 2) := by
  obtain ⟨t1, t2⟩ := ranksLess_of_lt hd hl hr ho
  refine stream_meanErr_dense env hE X lrank rrank seed hd hl hr (.inl ho) hseed t1 t2 ?_
  have hL := leftMats_gauss env X.shape (usedRanks X.shape lrank true) (env.sketchSeed seed)
  have hR := rightMatsDense_gauss env X.shape (usedRanks X.shape rrank false)
    (env.rightSeed (env.sketchSeed seed) X.shape.length) (usedRanks_length false (by omega) hr)
  exact stream_mean_right hg hL hR hap B k hB hover

/-- **C80, right ranks below the left ranks**: the bounds with the roles of the two sides exchanged; the growth factors are
those of the bonds before `mu`. -/
theorem C80_left (hg : GaussianDraws P g) (env : Env ℝ) (hE : MPContract env) (X : Tensor ℝ)
    (lrank rrank : RankArg) (seed : Option ℕ) (hX : X.Valid) (hne : X.NonEmpty) (hd : 2 ≤ X.shape.length)
    (hdist : X.Distinct) (hx : ∀ t ∈ X.summands, t.RightExact)
    (hl : (ranksOf lrank X.shape.length).length = X.shape.length - 1)
    (hr : (ranksOf rrank X.shape.length).length = X.shape.length - 1)
    (ho : ∀ k < X.shape.length - 1, (ranksOf rrank X.shape.length).getD k 0 < (ranksOf lrank X.shape.length).getD k 0)
    (hseed : seed.getD 0 < 2 ^ 32)
    (hsup : ∀ t ∈ X.summands, ∀ D : DRMData ℝ, D.kind = .denseGaussian → D.supports t = true)
    (hap : env.StreamsDistinct X.shape (env.sketchSeed seed) (env.rightSeed (env.sketchSeed seed) X.shape.length))
    (B : ℕ → ND ℝ) (k : ℕ → ℕ)
    (hB : ∀ mu < X.shape.length - 1, Oversampled X.toNumpy (B mu) mu (k mu)
      ((trimRanks X.shape (ranksOf rrank X.shape.length)).getD mu 0))
    (hover : ∀ mu < X.shape.length - 1, (trimRanks X.shape (ranksOf rrank X.shape.length)).getD mu 0 + 2
      ≤ (ranksOf lrank X.shape.length).getD mu 0) :
    MeanErrSq P (fun ω => (streamSketch (env.withDraws (g ω)) X lrank rrank
        { seed := seed, leftType := some .denseGaussian, rightType := some .denseGaussian }).bind
          fun S => S.toTT (env.withDraws (g ω))) X.toNumpy
      ((∑ mu ∈ range (X.shape.length - 1), √((∏ nu ∈ range mu,
          growth ((trimRanks X.shape (ranksOf rrank X.shape.length)).getD nu 0) ((ranksOf lrank X.shape.length).getD nu 0))
        * bondMean ((trimRanks X.shape (ranksOf rrank X.shape.length)).getD mu 0) ((ranksOf lrank X.shape.length).getD mu 0)
          (k mu) (distSq X.toNumpy (B mu)))) ^ 2) := by
  obtain ⟨t1, t2⟩ := ranksLess_of_lt hd hr hl ho
  refine stream_meanErr env hE X lrank rrank seed hX hne hd hdist hx hl hr (.inr ho) hseed hsup t2 t1 ?_
  have hsh := Tensor.toNumpy_shape hX
  have hL := leftMats_gauss env X.shape (usedRanks X.shape lrank false) (env.sketchSeed seed)
  have hR := rightMats_gauss env X.shape (usedRanks X.shape rrank true)
    (env.rightSeed (env.sketchSeed seed) X.shape.length) (usedRanks_length true (by omega) hr)
  rw [← hsh] at hR hL
  have := stream_mean_left hg hL hR (by rw [hsh]; exact hap) B k (by rw [hsh]; exact hB) (by rw [hsh]; exact hover)
  rw [hsh] at this
  rw [hsh]
  exact this

/-- **C80, right ranks below the left ranks, dense arrays** with any number of modes. -/
theorem C80_left_dense (hg : GaussianDraws P g) (env : Env ℝ) (hE : MPContract env) (X : ND ℝ)
    (lrank rrank : RankArg) (seed : Option ℕ) (hd : 2 ≤ X.shape.length)
    (hl : (ranksOf lrank X.shape.length).length = X.shape.length - 1)
    (hr : (ranksOf rrank X.shape.length).length = X.shape.length - 1)
    (ho : ∀ k < X.shape.length - 1, (ranksOf rrank X.shape.length).getD k 0 < (ranksOf lrank X.shape.length).getD k 0)
    (hseed : seed.getD 0 < 2 ^ 32)
    (hap : env.StreamsDistinct X.shape (env.sketchSeed seed) (env.rightSeed (env.sketchSeed seed) X.shape.length))
    (B : ℕ → ND ℝ) (k : ℕ → ℕ)
    (hB : ∀ mu < X.shape.length - 1, Oversampled X (B mu) mu (k mu)
      ((trimRanks X.shape (ranksOf rrank X.shape.length)).getD mu 0))
    (hover : ∀ mu < X.shape.length - 1, (trimRanks X.shape (ranksOf rrank X.shape.length)).getD mu 0 + 2
      ≤ (ranksOf lrank X.shape.length).getD mu 0) :
    MeanErrSq P (fun ω => (streamSketch (env.withDraws (g ω)) (.leaf (.dense X)) lrank rrank
        { seed := seed, leftType := some .denseGaussian, rightType := some .denseGaussian }).bind
          fun S => S.toTT (env.withDraws (g ω))) X
      ((∑ mu ∈ range (X.shape.length - 1), √((∏ nu ∈ range mu,
          growth ((trimRanks X.shape (ranksOf rrank X.shape.length)).getD nu 0) ((ranksOf lrank X.shape.length).getD nu 0))
        * bondMean ((trimRanks X.shape (ranksOf rrank X.shape.length)).getD mu 0) ((ranksOf lrank X.shape.length).getD mu 0)
          (k mu) (distSq X (B mu)))) ^ 2) := by
  obtain ⟨t1, t2⟩ := ranksLess_of_lt hd hr hl ho
  refine stream_meanErr_dense env hE X lrank rrank seed hd hl hr (.inr ho) hseed t2 t1 ?_
  have hL := leftMats_gauss env X.shape (usedRanks X.shape lrank false) (env.sketchSeed seed)
  have hR := rightMatsDense_gauss env X.shape (usedRanks X.shape rrank true)
    (env.rightSeed (env.sketchSeed seed) X.shape.length) (usedRanks_length true (by omega) hr)
  exact stream_mean_left hg hL hR hap B k hB hover

/-- **C80, in terms of singular values.** -/
theorem C80_svd (hg : GaussianDraws P g) (env : Env ℝ) (hE : MPContract env) (X : Tensor ℝ)
    (lrank rrank : RankArg) (seed : Option ℕ) (hX : X.Valid) (hne : X.NonEmpty) (hd : 2 ≤ X.shape.length)
    (hdist : X.Distinct) (hx : ∀ t ∈ X.summands, t.RightExact)
    (hl : (ranksOf lrank X.shape.length).length = X.shape.length - 1)
    (hr : (ranksOf rrank X.shape.length).length = X.shape.length - 1)
    (ho : ∀ k < X.shape.length - 1, (ranksOf lrank X.shape.length).getD k 0 < (ranksOf rrank X.shape.length).getD k 0)
    (hseed : seed.getD 0 < 2 ^ 32)
    (hsup : ∀ t ∈ X.summands, ∀ D : DRMData ℝ, D.kind = .denseGaussian → D.supports t = true)
    (hap : env.StreamsDistinct X.shape (env.sketchSeed seed) (env.rightSeed (env.sketchSeed seed) X.shape.length))
    (S : ℕ → List ℝ) (hS : ∀ mu < X.shape.length - 1, Spec.IsSingularValues X.toNumpy (mu + 1) (S mu)) (k : ℕ → ℕ)
    (hk : ∀ mu < X.shape.length - 1, k mu + 2 ≤ (trimRanks X.shape (ranksOf lrank X.shape.length)).getD mu 0 ∨
      ((S mu).length ≤ k mu ∧ k mu ≤ (trimRanks X.shape (ranksOf lrank X.shape.length)).getD mu 0))
    (hover : ∀ mu < X.shape.length - 1, (trimRanks X.shape (ranksOf lrank X.shape.length)).getD mu 0 + 2
      ≤ (ranksOf rrank X.shape.length).getD mu 0) :
    MeanErrSq P (fun ω => (streamSketch (env.withDraws (g ω)) X lrank rrank
        { seed := seed, leftType := some .denseGaussian, rightType := some .denseGaussian }).bind
          fun S => S.toTT (env.withDraws (g ω))) X.toNumpy
      ((∑ mu ∈ range (X.shape.length - 1), √((∏ nu ∈ Ico (mu + 1) (X.shape.length - 1),
          growth ((trimRanks X.shape (ranksOf lrank X.shape.length)).getD nu 0) ((ranksOf rrank X.shape.length).getD nu 0))
        * bondMean ((trimRanks X.shape (ranksOf lrank X.shape.length)).getD mu 0) ((ranksOf rrank X.shape.length).getD mu 0)
          (k mu) (∑ t ∈ Ico (k mu) (S mu).length, (S mu).getD t 0 ^ 2))) ^ 2) := by
  have hsh := Tensor.toNumpy_shape hX
  obtain ⟨B, b1, b2⟩ := svd_bonds (A := X.toNumpy) (k := k) (l := trimRanks X.shape (ranksOf lrank X.shape.length))
    (by rw [hsh]; exact hS) (by rw [hsh]; exact hk)
  rw [hsh] at b1 b2
  have := C80 hg env hE X lrank rrank seed hX hne hd hdist hx hl hr ho hseed hsup hap B k b1 hover
  rwa [sum_congr rfl fun mu hmu => by rw [b2 mu (mem_range.1 hmu)]] at this

/-- **C80, in terms of singular values, dense arrays.** -/
theorem C80_dense_svd (hg : GaussianDraws P g) (env : Env ℝ) (hE : MPContract env) (X : ND ℝ)
    (lrank rrank : RankArg) (seed : Option ℕ) (hd : 2 ≤ X.shape.length)
    (hl : (ranksOf lrank X.shape.length).length = X.shape.length - 1)
    (hr : (ranksOf rrank X.shape.length).length = X.shape.length - 1)
    (ho : ∀ k < X.shape.length - 1, (ranksOf lrank X.shape.length).getD k 0 < (ranksOf rrank X.shape.length).getD k 0)
    (hseed : seed.getD 0 < 2 ^ 32)
    (hap : env.StreamsDistinct X.shape (env.sketchSeed seed) (env.rightSeed (env.sketchSeed seed) X.shape.length))
    (S : ℕ → List ℝ) (hS : ∀ mu < X.shape.length - 1, Spec.IsSingularValues X (mu + 1) (S mu)) (k : ℕ → ℕ)
    (hk : ∀ mu < X.shape.length - 1, k mu + 2 ≤ (trimRanks X.shape (ranksOf lrank X.shape.length)).getD mu 0 ∨
      ((S mu).length ≤ k mu ∧ k mu ≤ (trimRanks X.shape (ranksOf lrank X.shape.length)).getD mu 0))
    (hover : ∀ mu < X.shape.length - 1, (trimRanks X.shape (ranksOf lrank X.shape.length)).getD mu 0 + 2
      ≤ (ranksOf rrank X.shape.length).getD mu 0) :
    MeanErrSq P (fun ω => (streamSketch (env.withDraws (g ω)) (.leaf (.dense X)) lrank rrank
        { seed := seed, leftType := some .denseGaussian, rightType := some .denseGaussian }).bind
          fun S => S.toTT (env.withDraws (g ω))) X
      ((∑ mu ∈ range (X.shape.length - 1), √((∏ nu ∈ Ico (mu + 1) (X.shape.length - 1),
          growth ((trimRanks X.shape (ranksOf lrank X.shape.length)).getD nu 0) ((ranksOf rrank X.shape.length).getD nu 0))
        * bondMean ((trimRanks X.shape (ranksOf lrank X.shape.length)).getD mu 0) ((ranksOf rrank X.shape.length).getD mu 0)
          (k mu) (∑ t ∈ Ico (k mu) (S mu).length, (S mu).getD t 0 ^ 2))) ^ 2) := by
  obtain ⟨B, b1, b2⟩ := svd_bonds (k := k) (l := trimRanks X.shape (ranksOf lrank X.shape.length)) hS hk
  have := C80_dense hg env hE X lrank rrank seed hd hl hr ho hseed hap B k b1 hover
  rwa [sum_congr rfl fun mu hmu => by rw [b2 mu (mem_range.1 hmu)]] at this

/-! ### Example

The `2 × 4 × 4` array of C72 with left rank three (trimmed to `[2, 3]`) and right rank five, and the other way round. -/

theorem env73_distinct : env73.StreamsDistinct [2, 4, 4] 7 (env73.rightSeed 7 3) := by
  have e : env73.rightSeed 7 3 = 10 := by decide
  rw [e]
  refine two_cases (two_cases ?_ ?_) (two_cases ?_ ?_) <;> decide

example : MeanErrSq normalDraws (fun ω => (streamSketch (env73.withDraws ω) (.leaf (.dense x72)) (.int 3) (.int 5)
      { seed := some 7, leftType := some .denseGaussian, rightType := some .denseGaussian }).bind
        fun S => S.toTT (env73.withDraws ω)) x72
    ((∑ mu ∈ range 2, √((∏ nu ∈ Ico (mu + 1) 2, growth ([2, 3].getD nu 0) ([5, 5].getD nu 0))
      * bondMean ([2, 3].getD mu 0) ([5, 5].getD mu 0) ([2, 1].getD mu 0) (distSq x72 ([x72, b72].getD mu x72)))) ^ 2) :=
  C80_dense normalDraws_gaussian env73 (mpChoice_contract rfl) x72 (.int 3) (.int 5) (some 7)
    (by decide) rfl rfl (by decide) (by decide) env73_distinct (fun mu => [x72, b72].getD mu x72)
    (fun mu => [2, 1].getD mu 0) (two_cases x72_one b72_over) (two_cases (by decide) (by decide))

example : MeanErrSq normalDraws (fun ω => (streamSketch (env73.withDraws ω) (.leaf (.dense x72)) (.int 5) (.int 3)
      { seed := some 7, leftType := some .denseGaussian, rightType := some .denseGaussian }).bind
        fun S => S.toTT (env73.withDraws ω)) x72
    ((∑ mu ∈ range 2, √((∏ nu ∈ range mu, growth ([2, 3].getD nu 0) ([5, 5].getD nu 0))
      * bondMean ([2, 3].getD mu 0) ([5, 5].getD mu 0) ([2, 1].getD mu 0) (distSq x72 ([x72, b72].getD mu x72)))) ^ 2) :=
  C80_left_dense normalDraws_gaussian env73 (mpChoice_contract rfl) x72 (.int 5) (.int 3) (some 7)
    (by decide) rfl rfl (by decide) (by decide) env73_distinct (fun mu => [x72, b72].getD mu x72)
    (fun mu => [2, 1].getD mu 0) (two_cases x72_one b72_over) (two_cases (by decide) (by decide))

end TTS.Props
