import Verif.Proofs.NystromChain
import Verif.Props.MomentsRandom

/-!
# Property C70: the tensor train of a streaming sketch

`StreamApprox`, `oblique`, `obliques`, `PinvsOf`, `NormBounds` and `MPContract` are in `Spec/Nystrom.lean`.
-/

namespace TTS.Props

open TTS Finset Matrix

theorem omegaMat_eq {A : ND ℝ} {L R : Mats ℝ} {lr rr : List ℕ} {mu : ℕ} (hmu : mu < A.shape.length - 1) :
    ((sketchOf A.shape A.get L R lr rr).omega.getD mu (ND.zeros [])).asMatrix (lr.getD mu 0) (rr.getD mu 0)
      = omegaMat A L R mu (lr.getD mu 0) (rr.getD mu 0) := by
  ext a b
  exact sketchOf_omega_get hmu a.2 b.2

/-- The inverses exist (and are unique, `IsPinv.unique`). -/
theorem pinvs_exist (A : ND ℝ) (L R : Mats ℝ) (lr rr : List ℕ) : ∃ G, PinvsOf A L R lr rr G := by
  have : ∀ mu, ∃ G : ℕ → ℕ → ℝ, IsPinv (omegaMat A L R mu (lr.getD mu 0) (rr.getD mu 0))
      (matOf (rr.getD mu 0) (lr.getD mu 0) G) := by
    intro mu
    obtain ⟨G, hG⟩ := exists_pinv (omegaMat A L R mu (lr.getD mu 0) (rr.getD mu 0))
    refine ⟨fun b a => if h : b < rr.getD mu 0 ∧ a < lr.getD mu 0 then G ⟨b, h.1⟩ ⟨a, h.2⟩ else 0, ?_⟩
    convert hG using 1
    ext b a
    simp only [matOf]
    rw [dif_pos ⟨b.2, a.2⟩]
  choose G hG using this
  exact ⟨G, fun mu _ => hG mu⟩

theorem streamApprox_of {A : ND ℝ} {L R : Mats ℝ} {lr rr : List ℕ} {Y : ND ℝ}
    (h : ∀ G, PinvsOf A L R lr rr G → Y = obliques A L R lr rr G (A.shape.length - 1) A) :
    StreamApprox A L R lr rr Y := by
  have herr : ∀ G c, PinvsOf A L R lr rr G → NormBounds A L R lr rr G c →
    √(distSq A Y) ≤ ∑ mu ∈ range (A.shape.length - 1), (∏ nu ∈ range mu, c nu)
      * √(nystromErrSq A L R (mu + 1) (lr.getD mu 0) (rr.getD mu 0) (G mu)) := by
    intro G c hG hc
    rw [h G hG]
    exact obliques_error (Nat.sub_le _ _) (fun k hk => (hc k hk).1) (fun k hk => (hc k hk).2) _ le_rfl
  refine ⟨h, herr, fun G c hG hc hr B => (herr G c hG hc).trans (sum_le_sum fun mu hmu => ?_)⟩
  have hmu := mem_range.1 hmu
  refine mul_le_mul_of_nonneg_left ?_ (prod_nonneg fun m hm => (hc m (by have := mem_range.1 hm; omega)).1)
  exact nystrom_le_range (by omega) (leftInv_of_rank (hG mu hmu).aga (hr mu hmu)) (hc mu hmu).2 (B mu)

theorem stream_assemble {env : Env ℝ} (hE : MPContract env) {A : ND ℝ} {L R : Mats ℝ} {lr rr : List ℕ}
    (hd : 2 ≤ A.shape.length) (hl : lr.length = A.shape.length - 1)
    (hr : rr.length = A.shape.length - 1) (hL : ∀ a, L 0 [] a = 1) (hR : ∀ b, R A.shape.length [] b = 1)
    (dir : Direction) (hdir : dir ≠ .other) :
    ∃ cs, assemble env (sketchOf A.shape A.get L R lr rr) dir = .ok cs ∧ (TT.mk cs).Valid ∧
      StreamApprox A L R lr rr (TT.mk cs).toNumpy := by
  have conv : ∀ G, PinvsOf A L R lr rr G → ∀ mu < A.shape.length - 1,
      IsPinv (((sketchOf A.shape A.get L R lr rr).omega.getD mu (ND.zeros [])).asMatrix (lr.getD mu 0) (rr.getD mu 0))
        (matOf (rr.getD mu 0) (lr.getD mu 0) (G mu)) := fun G hG mu hmu => by
    rw [omegaMat_eq hmu]; exact hG mu hmu
  obtain ⟨G0, hG0⟩ := pinvs_exist A L R lr rr
  obtain ⟨c1, a1, b1, -⟩ := nystrom_right hE (by omega) hl hr hL hR (conv G0 hG0)
  obtain ⟨c2, a2, b2, -⟩ := nystrom_left hE hd hr hL hR (conv G0 hG0)
  have f1 : StreamApprox A L R lr rr (TT.mk c1).toNumpy := streamApprox_of fun G hG => by
    obtain ⟨c, a, -, e⟩ := nystrom_right hE (by omega) hl hr hL hR (conv G hG)
    rw [a1] at a
    injection a with a
    subst a
    exact e
  have f2 : StreamApprox A L R lr rr (TT.mk c2).toNumpy := streamApprox_of fun G hG => by
    obtain ⟨c, a, -, e⟩ := nystrom_left hE hd hr hL hR (conv G hG)
    rw [a2] at a
    injection a with a
    subst a
    exact e
  cases dir with
  | auto =>
    rw [assemble_auto]
    split
    · exact ⟨c2, a2, b2, f2⟩
    · exact ⟨c1, a1, b1, f1⟩
  | left => exact ⟨c2, a2, b2, f2⟩
  | right => exact ⟨c1, a1, b1, f1⟩
  | other => exact absurd rfl hdir

/-- **C70.** Let `P_k Z = (X_k R_k) Omega_k⁺ (L_k Z_k)` for the unfolding behind the first `k` modes, where `L_k` and
`R_k` are the matrices of the two DRMs and `⁺` is the Moore-Penrose inverse.  The tensor train that `C_cores` (in any
direction) and `to_tt` make from a streaming sketch of `X` is `P_1 P_2 … P_(d-1) X`, and its error is bounded by the
errors `‖X - P_k X‖` of the bonds, each multiplied with bounds of the norms of the projections before it.  Formats as in
`C33_streaming`. -/
theorem C70_stream (env : Env ℝ) (hE : MPContract env) (X : Tensor ℝ) (lrank rrank : RankArg) (kw : SketchKw ℝ)
    (S : Sketched ℝ) (hkw : kw.Good) (hX : X.Valid) (hne : X.NonEmpty) (hd : 2 ≤ X.shape.length) (hdist : X.Distinct)
    (hx : ∀ t ∈ X.summands, t.RightExact) (h : streamSketch env X lrank rrank kw = .ok S) :
    (∀ dir, dir ≠ Direction.other → ∃ cs, S.cCores env dir = .ok cs ∧ (TT.mk cs).Valid ∧
      StreamApprox X.toNumpy (S.left.leftMats env) (S.right.rightMats env) S.leftRank S.rightRank (TT.mk cs).toNumpy) ∧
    ∃ Y, S.toTT env = .ok Y ∧ Y.Valid ∧
      StreamApprox X.toNumpy (S.left.leftMats env) (S.right.rightMats env) S.leftRank S.rightRank Y.toNumpy := by
  have e := C33_streaming env X lrank rrank kw S hkw hX hne hd hdist hx h
  obtain ⟨-, -, -, -, hl, hr⟩ := C38_shapes env X lrank rrank kw S hkw hX hne hd h
  obtain ⟨hS, -⟩ := stream_inv hkw hX hne hd h
  have hsh := Tensor.toNumpy_shape hX
  rw [← hsh] at e hl hr hd
  have key' : ∀ dir, dir ≠ Direction.other → ∃ cs, S.cCores env dir = .ok cs ∧ (TT.mk cs).Valid ∧
      StreamApprox X.toNumpy (S.left.leftMats env) (S.right.rightMats env) S.leftRank S.rightRank (TT.mk cs).toNumpy := by
    intro dir hdir
    unfold Sketched.cCores
    rw [e]
    exact stream_assemble hE hd hl hr (fun a => rfl)
      (fun b => by rw [rightMats_last env (by rw [hsh, hS.accR.shape])]) dir hdir
  refine ⟨key', ?_⟩
  obtain ⟨cs, h1, h2, h3⟩ := key' .auto (by decide)
  exact ⟨⟨cs⟩, by rw [Sketched.toTT, h1]; rfl, h2, h3⟩

/-- **C70, dense arrays** with any number of modes. -/
theorem C70_stream_dense (env : Env ℝ) (hE : MPContract env) (X : ND ℝ) (lrank rrank : RankArg) (kw : SketchKw ℝ)
    (S : Sketched ℝ) (hkw : kw.Good) (hd : 2 ≤ X.shape.length)
    (h : streamSketch env (.leaf (.dense X)) lrank rrank kw = .ok S) :
    (∀ dir, dir ≠ Direction.other → ∃ cs, S.cCores env dir = .ok cs ∧ (TT.mk cs).Valid ∧
      StreamApprox X (S.left.leftMats env) (S.right.rightMatsDense env) S.leftRank S.rightRank (TT.mk cs).toNumpy) ∧
    ∃ Y, S.toTT env = .ok Y ∧ Y.Valid ∧
      StreamApprox X (S.left.leftMats env) (S.right.rightMatsDense env) S.leftRank S.rightRank Y.toNumpy := by
  have e := C33_dense env X lrank rrank kw S hkw hd h
  obtain ⟨-, -, -, -, hl, hr⟩ := C38_shapes env (.leaf (.dense X)) lrank rrank kw S hkw trivial trivial hd h
  obtain ⟨hS, -⟩ := stream_inv (X := .leaf (.dense X)) hkw trivial trivial hd h
  have hsh : X.shape = S.right.shape := hS.accR.shape
  have key' : ∀ dir, dir ≠ Direction.other → ∃ cs, S.cCores env dir = .ok cs ∧ (TT.mk cs).Valid ∧
      StreamApprox X (S.left.leftMats env) (S.right.rightMatsDense env) S.leftRank S.rightRank (TT.mk cs).toNumpy := by
    intro dir hdir
    unfold Sketched.cCores
    rw [e]
    exact stream_assemble hE hd hl hr (fun a => rfl)
      (fun b => by rw [rightMatsDense_last env (by rw [hsh])]) dir hdir
  refine ⟨key', ?_⟩
  obtain ⟨cs, h1, h2, h3⟩ := key' .auto (by decide)
  exact ⟨⟨cs⟩, by rw [Sketched.toTT, h1]; rfl, h2, h3⟩

theorem approx_unique {A : ND ℝ} {L R : Mats ℝ} {lr rr : List ℕ} {Y Z : ND ℝ} (hY : StreamApprox A L R lr rr Y)
    (hZ : StreamApprox A L R lr rr Z) : Y = Z := by
  obtain ⟨G, hG⟩ := pinvs_exist A L R lr rr
  rw [hY.product G hG, hZ.product G hG]

/-- **C70, direction.** The tensor does not depend on the direction in which the cores are made, whether or not the
sketch determines the tensor: `C_cores("left")`, `C_cores("right")` and `to_tt` have the same entries. -/
theorem C70_directions (env : Env ℝ) (hE : MPContract env) (X : Tensor ℝ) (lrank rrank : RankArg) (kw : SketchKw ℝ)
    (S : Sketched ℝ) (hkw : kw.Good) (hX : X.Valid) (hne : X.NonEmpty) (hd : 2 ≤ X.shape.length) (hdist : X.Distinct)
    (hx : ∀ t ∈ X.summands, t.RightExact) (h : streamSketch env X lrank rrank kw = .ok S) :
    ∃ l r Y, S.cCores env .left = .ok l ∧ S.cCores env .right = .ok r ∧ S.toTT env = .ok Y ∧
      (TT.mk l).toNumpy = (TT.mk r).toNumpy ∧ Y.toNumpy = (TT.mk r).toNumpy := by
  obtain ⟨k1, Y, y1, -, y2⟩ := C70_stream env hE X lrank rrank kw S hkw hX hne hd hdist hx h
  obtain ⟨l, l1, -, l2⟩ := k1 .left (by decide)
  obtain ⟨r, r1, -, r2⟩ := k1 .right (by decide)
  exact ⟨l, r, Y, l1, r1, y1, approx_unique l2 r2, approx_unique y2 r2⟩

/-- **C70, direction, dense arrays.** -/
theorem C70_directions_dense (env : Env ℝ) (hE : MPContract env) (X : ND ℝ) (lrank rrank : RankArg) (kw : SketchKw ℝ)
    (S : Sketched ℝ) (hkw : kw.Good) (hd : 2 ≤ X.shape.length)
    (h : streamSketch env (.leaf (.dense X)) lrank rrank kw = .ok S) :
    ∃ l r Y, S.cCores env .left = .ok l ∧ S.cCores env .right = .ok r ∧ S.toTT env = .ok Y ∧
      (TT.mk l).toNumpy = (TT.mk r).toNumpy ∧ Y.toNumpy = (TT.mk r).toNumpy := by
  obtain ⟨k1, Y, y1, -, y2⟩ := C70_stream_dense env hE X lrank rrank kw S hkw hd h
  obtain ⟨l, l1, -, l2⟩ := k1 .left (by decide)
  obtain ⟨r, r1, -, r2⟩ := k1 .right (by decide)
  exact ⟨l, r, Y, l1, r1, y1, approx_unique l2 r2, approx_unique y2 r2⟩

/-- **C70, projections.** Each `P_k` is a projection, `P_k (P_k Z) = P_k Z`. -/
theorem C70_projection (A : ND ℝ) (L R : Mats ℝ) (lr rr : List ℕ) (G : ℕ → ℕ → ℕ → ℝ) (hG : PinvsOf A L R lr rr G)
    (mu : ℕ) (hmu : mu < A.shape.length - 1) (Z : ND ℝ) :
    oblique A L R (mu + 1) (lr.getD mu 0) (rr.getD mu 0) (G mu)
        (oblique A L R (mu + 1) (lr.getD mu 0) (rr.getD mu 0) (G mu) Z)
      = oblique A L R (mu + 1) (lr.getD mu 0) (rr.getD mu 0) (G mu) Z :=
  oblique_idem (by omega) (hG mu hmu).gag

/-- Bounds of the norms exist. -/
theorem normBounds_exist (A : ND ℝ) (L R : Mats ℝ) (lr rr : List ℕ) (G : ℕ → ℕ → ℕ → ℝ) :
    ∃ c, NormBounds A L R lr rr G c := by
  have key : ∀ mu, ∃ c : ℝ, 0 ≤ c ∧ (mu < A.shape.length - 1 → ∀ Z : ND ℝ, Z.shape = A.shape →
      √(normSq (oblique A L R (mu + 1) (lr.getD mu 0) (rr.getD mu 0) (G mu) Z)) ≤ c * √(normSq Z)) := by
    intro mu
    let T : E A.shape →ₗ[ℝ] E A.shape :=
      { toFun := fun v => vec A.shape fun i => ∑ b ∈ range (rr.getD mu 0), rightSketch A R (mu + 1) (i.take (mu + 1)) b
          * ∑ a ∈ range (lr.getD mu 0), G mu b a * sumIdx (A.shape.take (mu + 1)) fun p => L (mu + 1) p a
            * ext A.shape v (p ++ i.drop (mu + 1))
        map_add' := by
          intro v w
          rw [← map_add]
          congr 1
          funext i
          simp only [map_add, Pi.add_apply, mul_add, sumIdx_add, sum_add_distrib]
        map_smul' := by
          intro x v
          refine Eq.trans ?_ (map_smul (vec A.shape) x _)
          congr 1
          funext i
          simp only [map_smul, Pi.smul_apply, smul_eq_mul]
          rw [mul_sum]
          refine sum_congr rfl fun b _ => ?_
          rw [mul_left_comm x]
          congr 1
          rw [mul_sum]
          refine sum_congr rfl fun a _ => ?_
          rw [mul_left_comm x]
          congr 1
          rw [mul_sumIdx]
          exact sumIdx_congr fun p _ => by ring }
    refine ⟨‖LinearMap.toContinuousLinearMap T‖, norm_nonneg _, fun hmu Z hZ => ?_⟩
    have h1 := (LinearMap.toContinuousLinearMap T).le_opNorm (vec A.shape Z.get)
    rw [sqrt_normSq, sqrt_normSq, hZ, oblique_shape]
    refine le_of_eq_of_le ?_ h1
    congr 1
    rw [LinearMap.coe_toContinuousLinearMap']
    simp only [T, LinearMap.coe_mk, AddHom.coe_mk]
    refine vec_eq.2 ?_
    intro i hi
    rw [← List.take_append_drop (mu + 1) i, oblique_get (by omega) (hi.take _) (hi.drop _)]
    rw [List.take_append_drop]
    refine sum_congr rfl fun b _ => ?_
    congr 1
    refine sum_congr rfl fun a _ => ?_
    congr 1
    unfold leftSketch
    rw [hZ]
    refine sumIdx_congr fun p hp => ?_
    rw [ext_vec]
    have := hp.append (hi.drop (mu + 1))
    rwa [List.take_append_drop] at this
  choose c h1 h2 using key
  exact ⟨c, fun mu hmu => ⟨h1 mu, h2 mu hmu⟩⟩

/-! ### Examples -/

/-- `lstsq` multiplies with the Moore-Penrose inverse -/
noncomputable def env70 : Env ℝ := { env8 with lstsq := mpChoice }

/-- A lazy sum, ranks too small for exact recovery. -/
example : ∃ S l r Y, streamSketch env70 x66 (.int 1) (.int 2) { seed := some 7 } = .ok S ∧
    S.cCores env70 .left = .ok l ∧ S.cCores env70 .right = .ok r ∧ S.toTT env70 = .ok Y ∧
      (TT.mk l).toNumpy = (TT.mk r).toNumpy ∧ Y.toNumpy = (TT.mk r).toNumpy ∧
      ∃ G c, PinvsOf x66.toNumpy (S.left.leftMats env70) (S.right.rightMats env70) S.leftRank S.rightRank G ∧
        NormBounds x66.toNumpy (S.left.leftMats env70) (S.right.rightMats env70) S.leftRank S.rightRank G c := by
  obtain ⟨S, hS⟩ := C33_success env70 x66 (.int 1) (.int 2) (some 7) none none x66_valid (by decide) rfl rfl
    (.inl (by decide)) (by decide) fun t _ D hD => supports_tt D (by rcases hD with h | h <;> exact h) t
  obtain ⟨l, r, Y, h⟩ := C70_directions env70 (mpChoice_contract rfl) x66 (.int 1) (.int 2) _ S
    (SketchKw.good_none _ _ _) x66_valid (by simp [x66, Tensor.NonEmpty]) (by decide) x66_distinct x66_exact hS
  obtain ⟨G, hG⟩ := pinvs_exist x66.toNumpy (S.left.leftMats env70) (S.right.rightMats env70) S.leftRank S.rightRank
  obtain ⟨c, hc⟩ := normBounds_exist x66.toNumpy (S.left.leftMats env70) (S.right.rightMats env70) S.leftRank S.rightRank G
  exact ⟨S, l, r, Y, hS, h.1, h.2.1, h.2.2.1, h.2.2.2.1, h.2.2.2.2, G, c, hG, hc⟩

theorem rank_one_col {l r : ℕ} (M : Matrix (Fin l) (Fin r) ℝ) (hr : r = 1) (h : M ≠ 0) : M.rank = r := by
  subst hr
  refine le_antisymm ((Matrix.rank_le_width M)) ?_
  by_contra hc
  refine h ?_
  ext i j
  by_contra h0
  exact hc (rank_ge_one M i j h0)

/-- All hypotheses of the third bound: with probability one, for a tensor of rank one and ranks 2 (left) and 1 (right). -/
example : ∀ᵐ ω ∂normalDraws, ∃ S Y,
    streamSketch (env70.withDraws ω) (.leaf (.sparse x8)) (.int 2) (.int 1) { seed := some 7 } = .ok S ∧
    S.toTT (env70.withDraws ω) = .ok Y ∧ ∃ G c,
      PinvsOf x8.toNumpy (S.left.leftMats (env70.withDraws ω)) (S.right.rightMats (env70.withDraws ω)) S.leftRank S.rightRank G ∧
      NormBounds x8.toNumpy (S.left.leftMats (env70.withDraws ω)) (S.right.rightMats (env70.withDraws ω)) S.leftRank S.rightRank G c ∧
      ∀ mu < 2, (omegaMat x8.toNumpy (S.left.leftMats (env70.withDraws ω)) (S.right.rightMats (env70.withDraws ω)) mu
        (S.leftRank.getD mu 0) (S.rightRank.getD mu 0)).rank = S.rightRank.getD mu 0 := by
  have hM : ∀ ω, MPContract (env70.withDraws ω) := fun ω => mpChoice_contract rfl
  filter_upwards [C66_format normalDraws_continuous env70 (mpChoice_contract (env := env70) rfl).pinv.lstsq
    (fun _ _ => one_ne_zero) (.leaf (.sparse x8)) (.int 2) (.int 1) (some 7) x8_valid trivial (by decide) x8_distinct x8_exact
    rfl rfl (.inr (by decide)) (by decide) (env8_distinct _ _) (env8_distinct _ _) (two_cases (by decide) (by decide))
    (two_cases (by decide) (by decide))] with ω h
  obtain ⟨S, Y, h1, h2, h3, h4⟩ := h
  obtain ⟨G, hG⟩ := pinvs_exist x8.toNumpy (S.left.leftMats (env70.withDraws ω)) (S.right.rightMats (env70.withDraws ω))
    S.leftRank S.rightRank
  obtain ⟨c, hc⟩ := normBounds_exist x8.toNumpy (S.left.leftMats (env70.withDraws ω))
    (S.right.rightMats (env70.withDraws ω)) S.leftRank S.rightRank G
  refine ⟨S, Y, h1, h2, G, c, hG, hc, fun mu hmu => ?_⟩
  obtain ⟨tl, tr, -, -, -, e2⟩ := stream_drms (by decide) rfl rfl (by decide) h1
  have eR : S.rightRank = [1, 1] := by
    show S.right.rank.reverse = _
    rw [e2, made_rank _ _ _ _ _ _ (usedRanks_length tr (by decide) rfl)]
    show List.reverse (List.reverse _) = _
    rw [List.reverse_reverse]
    cases tr <;> decide
  have e1 : S.rightRank.getD mu 0 = 1 := by
    rw [eR]
    obtain rfl | rfl : mu = 0 ∨ mu = 1 := by omega
    all_goals rfl
  have hsh : x8.toNumpy.shape = [2, 3, 2] := Tensor.toNumpy_shape x8_valid
  have hdg : mu < x8.toNumpy.shape.length - 1 := by rw [hsh]; exact hmu
  have hne : omegaMat x8.toNumpy (S.left.leftMats (env70.withDraws ω)) (S.right.rightMats (env70.withDraws ω)) mu
        (S.leftRank.getD mu 0) (S.rightRank.getD mu 0) ≠ 0 := by
    intro h0
    have hg := (hG mu hdg).gag
    rw [h0, Matrix.mul_zero, Matrix.zero_mul] at hg
    have hz : ∀ Z : ND ℝ, oblique x8.toNumpy (S.left.leftMats (env70.withDraws ω)) (S.right.rightMats (env70.withDraws ω))
        (mu + 1) (S.leftRank.getD mu 0) (S.rightRank.getD mu 0) (G mu) Z = ND.zeros x8.toNumpy.shape := by
      intro Z
      refine ND.ext' rfl fun i hi => ?_
      have hi : InR x8.toNumpy.shape i := hi
      unfold oblique ND.zeros
      rw [ND.ofFn_get hi, ND.ofFn_get hi]
      refine sum_eq_zero fun b hb => mul_eq_zero_of_right _ (sum_eq_zero fun a ha => ?_)
      have := congrFun (congrFun hg ⟨b, by simpa using hb⟩) ⟨a, by simpa using ha⟩
      have : G mu b a = 0 := this.symm
      rw [this, zero_mul]
    obtain ⟨-, Y', y1, -, y2⟩ := C70_stream _ (hM ω) _ _ _ _ S (SketchKw.good_none _ _ _) x8_valid trivial (by decide)
      x8_distinct x8_exact h1
    rw [h2] at y1
    injection y1 with y1
    subst y1
    have hY := y2.product G hG
    have hlen : (Tensor.leaf (.sparse x8)).toNumpy.shape.length - 1 = 2 := by rw [Tensor.toNumpy_shape x8_valid]; rfl
    rw [h4, hlen] at hY
    have h5 := congrArg (fun A : ND ℝ => A.get [1, 2, 0]) hY
    have h6 : (Tensor.leaf (.sparse x8)).toNumpy.get [1, 2, 0] = 3 := by rw [x8_get]; simp
    have h7 : (obliques (Tensor.leaf (.sparse x8)).toNumpy (S.left.leftMats (env70.withDraws ω))
        (S.right.rightMats (env70.withDraws ω)) S.leftRank S.rightRank G 2 (Tensor.leaf (.sparse x8)).toNumpy).get [1, 2, 0]
        = 0 := by
      obtain rfl | rfl : mu = 0 ∨ mu = 1 := by omega
      · refine (congrArg (fun A : ND ℝ => A.get [1, 2, 0]) (hz _)).trans ?_
        simp [ND.zeros, ND.ofFn]
      · refine (congrArg (fun A : ND ℝ => (oblique x8.toNumpy (S.left.leftMats (env70.withDraws ω))
          (S.right.rightMats (env70.withDraws ω)) 1 (S.leftRank.getD 0 0) (S.rightRank.getD 0 0) (G 0) A).get [1, 2, 0])
          (hz x8.toNumpy)).trans ?_
        simp [oblique, ND.zeros, ND.ofFn, leftSketch, sumIdx_eq_sum]
    have h8 : (3 : ℝ) = 0 := h6.symm.trans (h5.trans h7)
    norm_num at h8
  exact rank_one_col _ e1 hne

end TTS.Props
