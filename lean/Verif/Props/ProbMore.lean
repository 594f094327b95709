import Verif.Props.Prob
import Verif.Proofs.Bond
import Verif.Proofs.ProbGauss

/-!
# C66, C67: ranks read off the format, examples, and a failure

`Tensor.bond` is in `Spec/Bond.lean`.
-/

namespace TTS.Props

open TTS Finset MeasureTheory

variable {Ω : Type*} [MeasurableSpace Ω] {P : Measure Ω} {g : Ω → Draw → ℝ}

/-- **C66, by format.** The ranks asked for are at least the TT ranks of a tensor train, the number of components of a
CP tensor, the number of entries of a sparse one, or for a lazy sum the sum of those of its summands. -/
theorem C66_format (hg : ContinuousDraws P g) (env : Env ℝ) (hE : LstsqContract env)
    (hinv : ∀ r, 0 < r → env.invSqrt r ≠ 0) (X : Tensor ℝ) (lrank rrank : RankArg) (seed : Option ℕ)
    (hX : X.Valid) (hne : X.NonEmpty) (hd : 2 ≤ X.shape.length) (hdist : X.Distinct)
    (hx : ∀ t ∈ X.summands, t.RightExact)
    (hl : (ranksOf lrank X.shape.length).length = X.shape.length - 1)
    (hr : (ranksOf rrank X.shape.length).length = X.shape.length - 1)
    (ho : RanksOrdered (X.shape.length - 1) (ranksOf lrank X.shape.length) (ranksOf rrank X.shape.length))
    (hseed : seed.getD 0 < 2 ^ 32)
    (hdl : env.DistinctStates (env.sketchSeed seed) X.shape.length)
    (hdr : env.DistinctStates (env.rightSeed (env.sketchSeed seed) X.shape.length) X.shape.length)
    (hrl : ∀ mu < X.shape.length - 1, X.bond mu ≤ (ranksOf lrank X.shape.length).getD mu 0)
    (hrr : ∀ mu < X.shape.length - 1, X.bond mu ≤ (ranksOf rrank X.shape.length).getD mu 0) :
    ∀ᵐ ω ∂P, ∃ S Y, streamSketch (env.withDraws (g ω)) X lrank rrank { seed := seed } = .ok S ∧
      S.toTT (env.withDraws (g ω)) = .ok Y ∧ Y.Valid ∧ Y.toNumpy = X.toNumpy := by
  filter_upwards [C66_stream hg env hE hinv X lrank rrank seed none none hX hne hd hdist hx hl hr ho hseed (.inl rfl)
    (.inl rfl) (fun t _ D hD => supports_tt D (by rcases hD with h | h <;> exact h) t) hdl hdr
    (fun mu hmu => (Tensor.rank_le_bond hX hdist hmu).trans (hrl mu hmu))
    (fun mu hmu => (Tensor.rank_le_bond hX hdist hmu).trans (hrr mu hmu))] with ω h
  obtain ⟨S, h1, -, Y, h2, h3⟩ := h
  exact ⟨S, Y, h1, h2, h3⟩

/-- **C67, by format**, for `orthogonal_sketch`. -/
theorem C67_format (hg : ContinuousDraws P g) (env : Env ℝ) (hE : LstsqContract env) (hQ : QRContract env)
    (hinv : ∀ r, 0 < r → env.invSqrt r ≠ 0) (X : Tensor ℝ) (lrank rrank : RankArg) (seed : Option ℕ)
    (hX : X.Valid) (hne : X.NonEmpty) (hd : 2 ≤ X.shape.length) (hdist : X.Distinct)
    (hx : ∀ t ∈ X.summands, t.RightExact)
    (hl : (ranksOf lrank X.shape.length).length = X.shape.length - 1)
    (hr : (ranksOf rrank X.shape.length).length = X.shape.length - 1)
    (ho : ∀ k < X.shape.length - 1, (ranksOf lrank X.shape.length).getD k 0 < (ranksOf rrank X.shape.length).getD k 0)
    (p1 : ∀ n ∈ X.shape, 0 < n) (p2 : ∀ r ∈ ranksOf lrank X.shape.length, 0 < r) (hseed : seed.getD 0 < 2 ^ 32)
    (hdl : env.DistinctStates (env.sketchSeed seed) X.shape.length)
    (hdr : env.DistinctStates (env.rightSeed (env.sketchSeed seed) X.shape.length) X.shape.length)
    (hrl : ∀ mu < X.shape.length - 1, X.bond mu ≤ (ranksOf lrank X.shape.length).getD mu 0) :
    ∀ᵐ ω ∂P, ∃ Y l r, orthogonalSketch (env.withDraws (g ω)) X lrank rrank { seed := seed } = .ok (Y, l, r) ∧ Y.Valid ∧
      Y.toNumpy = X.toNumpy :=
  C67_orthogonal hg env hE hQ hinv X lrank rrank seed none none hX hne hd hdist hx hl hr ho p1 p2 hseed (.inl rfl)
    (.inl rfl) (fun t _ D hD => supports_tt D (by rcases hD with h | h <;> exact h) t) hdl hdr
    fun mu hmu => (Tensor.rank_le_bond hX hdist hmu).trans (hrl mu hmu)

/-- **C67, by format**, for `hmt_sketch`. -/
theorem C67_hmt_format (hg : ContinuousDraws P g) (env : Env ℝ) (hE : LstsqContract env) (hQ : QRContract env)
    (hinv : ∀ r, 0 < r → env.invSqrt r ≠ 0) (X : Tensor ℝ) (rank : RankArg) (seed : Option ℕ)
    (hX : X.Valid) (hne : X.NonEmpty) (hd : 2 ≤ X.shape.length) (hdist : X.Distinct)
    (hx : ∀ t ∈ X.summands, t.RightExact)
    (hl : (ranksOf rank X.shape.length).length = X.shape.length - 1)
    (p1 : ∀ n ∈ X.shape, 0 < n) (p2 : ∀ r ∈ ranksOf rank X.shape.length, 0 < r) (hseed : seed.getD 0 < 2 ^ 32)
    (hdr : env.DistinctStates (env.sketchSeed seed) X.shape.length)
    (hr : ∀ mu < X.shape.length - 1, X.bond mu ≤ (ranksOf rank X.shape.length).getD mu 0) :
    ∀ᵐ ω ∂P, ∃ Y, hmtSketch (env.withDraws (g ω)) X rank seed = .ok Y ∧ Y.Valid ∧ Y.toNumpy = X.toNumpy :=
  C67_hmt hg env hE hQ hinv X rank seed none hX hne hd hdist hx hl p1 p2 hseed (.inl rfl)
    (fun t _ D hD => supports_tt D hD t) hdr fun mu hmu => (Tensor.rank_le_bond hX hdist hmu).trans (hr mu hmu)

/-! ## Examples -/

theorem env8_distinct (s d : ℕ) : env8.DistinctStates s d := by
  intro i _ j _ h
  have : s % (2 ^ 32 - 1) + i = s % (2 ^ 32 - 1) + j := h
  omega

/-- a train and a sparse tensor, TT ranks `[1, 1]` and one entry: ranks 2 and 3 are enough -/
noncomputable def x66 : Tensor ℝ :=
  .sum ⟨[2, 3, 2], [.sparse x8, .tt ⟨[ones [1, 2, 1], ones [1, 3, 1], ones [1, 2, 1]]⟩]⟩

theorem x66_valid : x66.Valid := by
  intro t ht
  rcases List.mem_pair.1 ht with rfl | rfl
  · exact ⟨x8_valid, rfl⟩
  · exact ⟨⟨by simp, 2, 1, rfl, 3, 1, rfl, 2, 1, rfl, rfl⟩, rfl⟩

theorem x66_distinct : x66.Distinct := by
  intro t ht
  rcases List.mem_pair.1 ht with rfl | rfl
  · exact x8_distinct
  · trivial

theorem x66_exact : ∀ t ∈ x66.summands, t.RightExact := by
  intro t ht
  rcases List.mem_pair.1 ht with rfl | rfl
  · exact trivial
  · trivial

theorem x66_bond : ∀ mu < 2, x66.bond mu = 2 := two_cases rfl rfl

example : ∀ᵐ ω ∂normalDraws, ∃ S Y, streamSketch (env8.withDraws ω) x66 (.int 2) (.int 3) { seed := some 7 } = .ok S ∧
    S.toTT (env8.withDraws ω) = .ok Y ∧ Y.Valid ∧ Y.toNumpy = x66.toNumpy :=
  C66_format normalDraws_continuous env8 (lstsqChoice_contract rfl) (fun _ _ => one_ne_zero) x66 (.int 2) (.int 3) (some 7)
    x66_valid (by simp [x66, Tensor.NonEmpty]) (by decide) x66_distinct x66_exact rfl rfl (.inl (by decide)) (by decide)
    (env8_distinct _ _) (env8_distinct _ _) (fun mu hmu => by rw [x66_bond mu hmu]; revert mu; decide)
    (fun mu hmu => by rw [x66_bond mu hmu]; revert mu; decide)


/-! ## A failure: tensor train DRMs on dense arrays with three modes

The right matrices are applied with the modes in the wrong order (finding with C33), so the rank of the first unfolding
that gets through is at most the rank of the *last* bond. -/

/-- the array `x[i, j, k] = [i = j] [k = 0]` of shape `(2, 2, 2)`, with TT ranks `(2, 1)` -/
noncomputable def swap66 : ND ℝ := ND.ofFn [2, 2, 2] fun i =>
  if i.getD 0 0 = i.getD 1 0 ∧ i.getD 2 0 = 0 then 1 else 0

theorem swap66_get {i j k : ℕ} (hi : i < 2) (hj : j < 2) (hk : k < 2) :
    swap66.get [i, j, k] = if i = j ∧ k = 0 then 1 else 0 := by
  rw [swap66, ND.ofFn_get (show InR [2, 2, 2] [i, j, k] from ⟨hi, hj, hk, trivial⟩)]; rfl

/-- The ranks asked for below are at least the ranks of the unfoldings. -/
theorem swap66_rank : (swap66.unfolding 1).rank ≤ 2 ∧ (swap66.unfolding 2).rank ≤ 1 := by
  constructor
  · refine (Matrix.rank_le_height _).trans ?_
    decide
  · refine Splits.rank_le ⟨fun p _ => if p.getD 0 0 = p.getD 1 0 then 1 else 0, fun q _ => if q.getD 0 0 = 0 then 1 else 0, ?_⟩
      (by decide)
    intro p q hp hi
    match p, q, hp, hi with
    | [i, j], [k], _, hi =>
      obtain ⟨h1, h2, h3, -⟩ := hi
      show swap66.get [i, j, k] = _
      rw [swap66_get h1 h2 h3, sum_range_one]
      show _ = (if i = j then (1 : ℝ) else 0) * if k = 0 then 1 else 0
      split_ifs <;> simp_all

/-- **C66, where it fails.** For the array above and default (tensor train) DRMs, no outcome of the generators makes
`to_tt` return the array, although the ranks asked for are at least its TT ranks. -/
theorem C66_dense_tt_fails (env : Env ℝ) (hE : LstsqContract env) (seed : Option ℕ) (hseed : seed.getD 0 < 2 ^ 32) :
    ∃ S Y, streamSketch env (.leaf (.dense swap66)) (.seq [3, 2]) (.seq [2, 1]) { seed := seed } = .ok S ∧
      S.toTT env = .ok Y ∧ Y.Valid ∧ Y.toNumpy ≠ swap66 := by
  obtain ⟨S, hS⟩ := C33_success env (.leaf (.dense swap66)) (.seq [3, 2]) (.seq [2, 1]) seed none none trivial
    (by decide) rfl rfl (.inr (by decide)) hseed (fun t _ D hD => supports_tt D (by rcases hD with h | h <;> exact h) t)
  have hkw : SketchKw.Good (K := ℝ) { seed := seed } := SketchKw.good_none _ _ _
  obtain ⟨-, -, ⟨Y, hY, hv, hsh, -⟩, -⟩ := C40_cores env hE (.leaf (.dense swap66)) _ _ _ S hkw trivial trivial (by decide) hS
  refine ⟨S, Y, hS, hY, hv, fun hc => ?_⟩
  obtain ⟨tl, tr, t1, t2, e1, e2⟩ := stream_drms (X := .leaf (.dense swap66)) (by decide) rfl rfl hseed hS
  have t1' : tl = false := by injection t1 with h; rw [← h]; decide
  have t2' : tr = true := by injection t2 with h; rw [← h]; decide
  subst t1' t2'
  have hL : S.leftRank = [3, 2] := by
    show S.left.rank = _
    rw [e1]
    exact made_rank _ _ [2, 2, 2] _ _ _ rfl
  have hR : S.rightRank = [2, 1] := by
    show S.right.rank.reverse = _
    rw [e2]
    exact congrArg List.reverse (made_rank _ _ [2, 2, 2] _ _ _ rfl)
  have e := C33_dense env swap66 _ _ _ S hkw (by decide) hS
  rw [hL, hR] at e
  -- the first core of the result is `Psi[0]`
  have hY' := hY
  unfold Sketched.toTT Sketched.cCores at hY'
  rw [assemble_auto, if_pos (by rw [e]; rfl)] at hY'
  unfold assembleLeft at hY'
  have hhead : ∃ cs, Y.cores = S.sketch.psi.headD (ND.zeros []) :: cs := by
    split at hY'
    · cases hY'
    · rename_i cs _
      injection hY' with h
      exact ⟨cs, by rw [← h]⟩
  obtain ⟨cs, hcs⟩ := hhead
  -- and has rank one
  obtain ⟨C0, C1, hdat, hC0⟩ : ∃ C0 C1 : ND ℝ, S.right.data = .tt [C0, C1] ∧ C0.shape = [1, 2, 1] := by
    rw [e2]; exact ⟨_, _, rfl, rfl⟩
  have hmin : S.right.rankMin.getD 1 0 = 0 := by rw [e2]; rfl
  have hshape : S.right.shape = [2, 2, 2] := by rw [e2]; rfl
  have hRm : ∀ j k b, j < 2 → k < 2 → S.right.rightMatsDense env 1 [j, k] b = C0.get [0, j, 0] * ttVal [C1] [k] 0 b := by
    intro j k b hj hk
    unfold DRM.rightMatsDense
    rw [hshape, if_neg (by decide)]
    have : unravel (List.drop 1 [2, 2, 2]).reverse (ravel (List.drop 1 [2, 2, 2]) [j, k]) = [j, k] :=
      unravel_ravel (s := [2, 2]) ⟨hj, hk, trivial⟩
    rw [this]
    unfold DRM.entry
    rw [hdat]
    show ttVal [C0, C1] [j, k] 0 (S.right.rankMin.getD 1 0 + b) = _
    rw [hmin, zero_add]
    show ∑ t ∈ range (C0.dim 2), _ = _
    rw [show C0.dim 2 = 1 by rw [ND.dim, hC0]; rfl, sum_range_one]
  have hpsi : ∀ i b, i < 2 → b < 2 → (S.sketch.psi.headD (ND.zeros [])).get [0, i, b] = C0.get [0, i, 0] * ttVal [C1] [0] 0 b := by
    intro i b hi hb
    have := sketchOf_psi_get (sh := swap66.shape) (f := swap66.get) (L := S.left.leftMats env)
      (R := S.right.rightMatsDense env) (lr := [3, 2]) (rr := [2, 1]) (mu := 0) (a := 0) (j := i) (b := b) (by decide)
      (by decide) hi hb
    rw [← e] at this
    have hh : S.sketch.psi.getD 0 (ND.zeros []) = S.sketch.psi.headD (ND.zeros []) := by
      cases S.sketch.psi <;> rfl
    rw [← hh, this]
    show ∑ j ∈ range 2, ∑ k ∈ range 2, 1 * swap66.get [i, j, k] * S.right.rightMatsDense env 1 [j, k] b = _
    simp only [sum_range_succ, sum_range_zero, zero_add, one_mul]
    rw [hRm 0 0 b (by omega) (by omega), hRm 0 1 b (by omega) (by omega), hRm 1 0 b (by omega) (by omega),
      hRm 1 1 b (by omega) (by omega), swap66_get hi (by omega) (by omega), swap66_get hi (by omega) (by omega),
      swap66_get hi (by omega) (by omega), swap66_get hi (by omega) (by omega)]
    have : i = 0 ∨ i = 1 := by omega
    rcases this with rfl | rfl <;> simp
  have hdim : (S.sketch.psi.headD (ND.zeros [])).dim 2 = 2 := by rw [e]; rfl
  have hval : ∀ i j k, i < 2 → Y.toNumpy.get [i, j, k] = C0.get [0, i, 0] * ∑ b ∈ range 2, ttVal [C1] [0] 0 b * ttVal cs [j, k] b 0 := by
    intro i j k hi
    rw [TT.toNumpy_get hv, ttEntry, hcs]
    show ∑ t ∈ range (ND.dim _ 2), _ = _
    rw [hdim, mul_sum]
    refine sum_congr rfl fun b hb => ?_
    rw [hpsi i b hi (mem_range.1 hb), mul_assoc]
  rw [hc] at hval
  have v1 := hval 0 0 0 (by omega)
  have v2 := hval 1 1 0 (by omega)
  have v3 := hval 0 1 0 (by omega)
  rw [swap66_get (by omega) (by omega) (by omega)] at v1 v2 v3
  simp only [and_true, if_true, zero_ne_one, if_false] at v1 v2 v3
  rcases mul_eq_zero.1 v3.symm with h | h
  · rw [h, zero_mul] at v1; exact one_ne_zero v1
  · rw [h, mul_zero] at v2; exact one_ne_zero v2

/-- Dense Gaussian DRMs recover the same array with the same ranks. -/
example : ∀ᵐ ω ∂normalDraws, ∃ S, streamSketch (env8.withDraws ω) (.leaf (.dense swap66)) (.seq [3, 2]) (.seq [2, 1])
      { seed := some 7, leftType := some .denseGaussian, rightType := some .denseGaussian } = .ok S ∧
    (∀ dir, dir ≠ Direction.other → ∃ cs, S.cCores (env8.withDraws ω) dir = .ok cs ∧ (TT.mk cs).Valid ∧
      (TT.mk cs).toNumpy = swap66) ∧
    ∃ Y, S.toTT (env8.withDraws ω) = .ok Y ∧ Y.Valid ∧ Y.toNumpy = swap66 :=
  C66_stream_dense normalDraws_continuous env8 (lstsqChoice_contract rfl) (fun _ _ => one_ne_zero) swap66 (.seq [3, 2])
    (.seq [2, 1]) (some 7) _ _ (by decide) rfl rfl (.inr (by decide)) (by decide) (.inr rfl) rfl (env8_distinct _ _)
    (two_cases (swap66_rank.1.trans (by decide)) (swap66_rank.2.trans (by decide)))
    (two_cases swap66_rank.1 swap66_rank.2)

example : ∀ᵐ ω ∂normalDraws, ∃ Y l r, orthogonalSketch (env8.withDraws ω) x66 (.int 2) (.int 3) { seed := some 7 }
      = .ok (Y, l, r) ∧ Y.Valid ∧ Y.toNumpy = x66.toNumpy :=
  C67_format normalDraws_continuous env8 (lstsqChoice_contract rfl) (qrChoice_contract rfl) (fun _ _ => one_ne_zero) x66
    (.int 2) (.int 3) (some 7) x66_valid (by simp [x66, Tensor.NonEmpty]) (by decide) x66_distinct x66_exact rfl rfl
    (by decide) (by decide) (by decide) (by decide)
    (env8_distinct _ _) (env8_distinct _ _) (fun mu hmu => by rw [x66_bond mu hmu]; revert mu; decide)

example : ∀ᵐ ω ∂normalDraws, ∃ Y, hmtSketch (env8.withDraws ω) x66 (.int 2) (some 7) = .ok Y ∧ Y.Valid ∧
      Y.toNumpy = x66.toNumpy :=
  C67_hmt_format normalDraws_continuous env8 (lstsqChoice_contract rfl) (qrChoice_contract rfl) (fun _ _ => one_ne_zero)
    x66 (.int 2) (some 7) x66_valid (by simp [x66, Tensor.NonEmpty]) (by decide) x66_distinct x66_exact rfl
    (by decide) (by decide) (by decide) (env8_distinct _ _) (fun mu hmu => by rw [x66_bond mu hmu]; revert mu; decide)

end TTS.Props
