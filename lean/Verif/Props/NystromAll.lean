import Verif.Proofs.NystromCols
import Verif.Props.Nystrom
import Verif.Props.OrthErrAll

/-!
# Property C70 for every format

`StreamApproxCols`, `PinvsOfCols`, `NormBoundsCols` are in `Spec/NystromAll.lean`, `Tensor.rightCols` in
`Spec/RightCols.lean`.
-/

namespace TTS.Props

open TTS Finset Matrix

theorem pinvs_exist_cols (A : ND ℝ) (L : Mats ℝ) (M : ℕ → List ℕ → ℕ → ℝ) (lr rr : List ℕ) :
    ∃ G, PinvsOfCols A L M lr rr G := by
  have : ∀ mu, ∃ G : ℕ → ℕ → ℝ, IsPinv (matOf (lr.getD mu 0) (rr.getD mu 0) (colsOmega A.shape L M (mu + 1)))
      (matOf (rr.getD mu 0) (lr.getD mu 0) G) := by
    intro mu
    obtain ⟨G, hG⟩ := exists_pinv (matOf (lr.getD mu 0) (rr.getD mu 0) (colsOmega A.shape L M (mu + 1)))
    refine ⟨fun b a => if h : b < rr.getD mu 0 ∧ a < lr.getD mu 0 then G ⟨b, h.1⟩ ⟨a, h.2⟩ else 0, ?_⟩
    convert hG using 1
    ext b a
    simp only [matOf]
    rw [dif_pos ⟨b.2, a.2⟩]
  choose G hG using this
  exact ⟨G, fun mu _ => hG mu⟩

theorem streamApproxCols_of {A : ND ℝ} {L : Mats ℝ} {M : ℕ → List ℕ → ℕ → ℝ} {lr rr : List ℕ} {Y : ND ℝ}
    (h : ∀ G, PinvsOfCols A L M lr rr G → Y = obliquesCols A L M lr rr G (A.shape.length - 1) A) :
    StreamApproxCols A L M lr rr Y := by
  have herr : ∀ G c, PinvsOfCols A L M lr rr G → NormBoundsCols A L M lr rr G c →
    √(distSq A Y) ≤ ∑ mu ∈ range (A.shape.length - 1), (∏ nu ∈ range mu, c nu)
      * √(distSq A (obliqueCols A L M (mu + 1) (lr.getD mu 0) (rr.getD mu 0) (G mu) A)) := by
    intro G c hG hc
    rw [h G hG]
    exact obliques_error_cols (Nat.sub_le _ _) (fun k hk => (hc k hk).1) (fun k hk => (hc k hk).2) _ le_rfl
  refine ⟨h, fun G hG mu hmu Z => oblique_idem_cols (by omega) (hG mu hmu).gag, herr,
    fun G c hG hc hr B => (herr G c hG hc).trans (sum_le_sum fun mu hmu => ?_)⟩
  have hmu := mem_range.1 hmu
  refine mul_le_mul_of_nonneg_left ?_ (prod_nonneg fun m hm => (hc m (by have := mem_range.1 hm; omega)).1)
  exact nystrom_le_range_cols (by omega) (leftInv_of_rank (hG mu hmu).aga (hr mu hmu)) (hc mu hmu).2 (B mu)

theorem stream_assemble_cols {env : Env ℝ} (hE : MPContract env) {A : ND ℝ} {L : Mats ℝ} {M : ℕ → List ℕ → ℕ → ℝ}
    {lr rr : List ℕ} (hd : 2 ≤ A.shape.length) (hl : lr.length = A.shape.length - 1)
    (hr : rr.length = A.shape.length - 1) (hL : ∀ a, L 0 [] a = 1) {s : Container ℝ}
    (hs : s.HasShape A.shape lr rr) (hpsi : ∀ mu < A.shape.length, ∀ a < (1 :: lr).getD mu 0, ∀ j < A.shape.getD mu 0,
      ∀ b < (rr ++ [1]).getD mu 0, (s.psi.getD mu (ND.zeros [])).get [a, j, b] = psiM A.shape L M mu a j b)
    (hom : ∀ mu < A.shape.length - 1, ∀ a < lr.getD mu 0, ∀ b < rr.getD mu 0,
      (s.omega.getD mu (ND.zeros [])).get [a, b] = colsOmega A.shape L M (mu + 1) a b)
    (hlast : ∀ a < (1 :: lr).getD (A.shape.length - 1) 0, ∀ j < A.shape.getD (A.shape.length - 1) 0,
      (s.psi.getD (A.shape.length - 1) (ND.zeros [])).get [a, j, 0] = leftSketch A L (A.shape.length - 1) a [j])
    (dir : Direction) (hdir : dir ≠ .other) :
    ∃ cs, assemble env s dir = .ok cs ∧ (TT.mk cs).Valid ∧ StreamApproxCols A L M lr rr (TT.mk cs).toNumpy := by
  have conv : ∀ G, PinvsOfCols A L M lr rr G → ∀ mu < A.shape.length - 1,
      IsPinv ((s.omega.getD mu (ND.zeros [])).asMatrix (lr.getD mu 0) (rr.getD mu 0))
        (matOf (rr.getD mu 0) (lr.getD mu 0) (G mu)) := fun G hG mu hmu => by
    have : (s.omega.getD mu (ND.zeros [])).asMatrix (lr.getD mu 0) (rr.getD mu 0)
        = matOf (lr.getD mu 0) (rr.getD mu 0) (colsOmega A.shape L M (mu + 1)) := by
      ext a b
      exact hom mu hmu a a.2 b b.2
    rw [this]; exact hG mu hmu
  obtain ⟨G0, hG0⟩ := pinvs_exist_cols A L M lr rr
  obtain ⟨c1, a1, b1, -⟩ := nystrom_right_cols hE (by omega) hl hr hL hs hpsi hlast (conv G0 hG0)
  obtain ⟨c2, a2, b2, -⟩ := nystrom_left_cols hE hd hr hL hs hpsi hlast (conv G0 hG0)
  have f1 : StreamApproxCols A L M lr rr (TT.mk c1).toNumpy := streamApproxCols_of fun G hG => by
    obtain ⟨c, a, -, e⟩ := nystrom_right_cols hE (by omega) hl hr hL hs hpsi hlast (conv G hG)
    rw [a1] at a
    injection a with a
    subst a
    exact e
  have f2 : StreamApproxCols A L M lr rr (TT.mk c2).toNumpy := streamApproxCols_of fun G hG => by
    obtain ⟨c, a, -, e⟩ := nystrom_left_cols hE hd hr hL hs hpsi hlast (conv G hG)
    rw [a2] at a
    injection a with a
    subst a
    exact e
  cases dir with
  | auto =>
    rw [assemble_auto]
    split
    · exact ⟨c2, a2, b2, f2⟩
    · exact ⟨c1, a1, b1, f1⟩
  | left => exact ⟨c2, a2, b2, f2⟩
  | right => exact ⟨c1, a1, b1, f1⟩
  | other => exact absurd rfl hdir

/-- **C70, every format** (lazy sums of different formats included).  With the sketched unfoldings `M_k` (C62), the left
matrices `L_k` and `Omega_k = L_k M_k`, put `P_k Z = M_k Omega_k⁺ (L_k Z_k)`.  The tensor train that `C_cores` (in any
direction) and `to_tt` make from a streaming sketch of `X` is `P_1 P_2 … P_(d-1) X`, with the same error bounds. -/
theorem C70_stream_all (env : Env ℝ) (hE : MPContract env) (X : Tensor ℝ) (lrank rrank : RankArg) (kw : SketchKw ℝ)
    (S : Sketched ℝ) (hkw : kw.Good) (hX : X.Valid) (hne : X.NonEmpty) (hd : 2 ≤ X.shape.length) (hdist : X.Distinct)
    (h : streamSketch env X lrank rrank kw = .ok S) :
    (∀ dir, dir ≠ Direction.other → ∃ cs, S.cCores env dir = .ok cs ∧ (TT.mk cs).Valid ∧
      StreamApproxCols X.toNumpy (S.left.leftMats env) (X.rightCols env S.right) S.leftRank S.rightRank
        (TT.mk cs).toNumpy) ∧
    ∃ Y, S.toTT env = .ok Y ∧ Y.Valid ∧
      StreamApproxCols X.toNumpy (S.left.leftMats env) (X.rightCols env S.right) S.leftRank S.rightRank Y.toNumpy := by
  obtain ⟨hshape, -, -, -, hl, hr⟩ := C38_shapes env X lrank rrank kw S hkw hX hne hd h
  obtain ⟨hS, -⟩ := stream_inv hkw hX hne hd h
  have hsh := Tensor.toNumpy_shape hX
  have hgen := streaming_sum hS.accL hS.accR hS.dirL hS.dirR (env := env)
  rw [← hS.sketch] at hgen
  obtain ⟨q1, q2⟩ := tensor_psi_cols hS.accL hS.accR hS.dirL hS.dirR hdist hgen
  have q3 := last_psi hX hS.accL hS.accR hS.dirL hS.dirR hdist (env := env)
  rw [← hS.sketch] at q3
  have key' : ∀ dir, dir ≠ Direction.other → ∃ cs, S.cCores env dir = .ok cs ∧ (TT.mk cs).Valid ∧
      StreamApproxCols X.toNumpy (S.left.leftMats env) (X.rightCols env S.right) S.leftRank S.rightRank
        (TT.mk cs).toNumpy := by
    intro dir hdir
    refine stream_assemble_cols hE (by rw [hsh]; exact hd) (by rw [hsh]; exact hl) (by rw [hsh]; exact hr) (fun a => rfl)
      (by rw [hsh]; exact hshape) ?_ ?_ ?_ dir hdir
    · rw [hsh]; exact q1
    · rw [hsh]; exact q2
    · intro a ha j hj
      rw [hsh] at ha hj ⊢
      rw [q3 a ha j hj]
      unfold leftSketch pcL
      rw [hsh]
  refine ⟨key', ?_⟩
  obtain ⟨cs, h1, h2, h3⟩ := key' .auto (by decide)
  exact ⟨⟨cs⟩, by rw [Sketched.toTT, h1]; rfl, h2, h3⟩

theorem approx_unique_cols {A : ND ℝ} {L : Mats ℝ} {M : ℕ → List ℕ → ℕ → ℝ} {lr rr : List ℕ} {Y Z : ND ℝ}
    (hY : StreamApproxCols A L M lr rr Y) (hZ : StreamApproxCols A L M lr rr Z) : Y = Z := by
  obtain ⟨G, hG⟩ := pinvs_exist_cols A L M lr rr
  rw [hY.product G hG, hZ.product G hG]

/-- **C70, direction, every format.** -/
theorem C70_directions_all (env : Env ℝ) (hE : MPContract env) (X : Tensor ℝ) (lrank rrank : RankArg) (kw : SketchKw ℝ)
    (S : Sketched ℝ) (hkw : kw.Good) (hX : X.Valid) (hne : X.NonEmpty) (hd : 2 ≤ X.shape.length) (hdist : X.Distinct)
    (h : streamSketch env X lrank rrank kw = .ok S) :
    ∃ l r Y, S.cCores env .left = .ok l ∧ S.cCores env .right = .ok r ∧ S.toTT env = .ok Y ∧
      (TT.mk l).toNumpy = (TT.mk r).toNumpy ∧ Y.toNumpy = (TT.mk r).toNumpy := by
  obtain ⟨k1, Y, y1, -, y2⟩ := C70_stream_all env hE X lrank rrank kw S hkw hX hne hd hdist h
  obtain ⟨l, l1, -, l2⟩ := k1 .left (by decide)
  obtain ⟨r, r1, -, r2⟩ := k1 .right (by decide)
  exact ⟨l, r, Y, l1, r1, y1, approx_unique_cols l2 r2, approx_unique_cols y2 r2⟩

/-- A projection fixes the array if its unfolding factors through the sketched unfolding and the left sketch loses none
of the rows of the latter. -/
theorem oblique_self {A : ND ℝ} {L : Mats ℝ} {M : ℕ → List ℕ → ℕ → ℝ} {k l r : ℕ} {G : ℕ → ℕ → ℝ}
    (hk : k ≤ A.shape.length) (hG : matOf l r (colsOmega A.shape L M k) * matOf r l G * matOf l r (colsOmega A.shape L M k)
      = matOf l r (colsOmega A.shape L M k)) {B : ℕ → List ℕ → ℝ} {C : List ℕ → ℕ → ℝ}
    (hB : ∀ p q, InR (A.shape.take k) p → InR (A.shape.drop k) q → A.get (p ++ q) = ∑ b ∈ range r, M k p b * B b q)
    (hC : ∀ p, InR (A.shape.take k) p → ∀ b < r, M k p b = ∑ c ∈ range l, C p c * colsOmega A.shape L M k c b) :
    obliqueCols A L M k l r G A = A := by
  refine ND.ext' rfl fun i hi => ?_
  have hi : InR A.shape i := hi
  have hls : ∀ a q, InR (A.shape.drop k) q →
      leftSketch A L k a q = ∑ b ∈ range r, colsOmega A.shape L M k a b * B b q := by
    intro a q hq
    have : leftSketch A L k a q = sumIdx (A.shape.take k) fun p => ∑ b ∈ range r, L k p a * M k p b * B b q := by
      refine sumIdx_congr fun p hp => ?_
      rw [hB p q hp hq, mul_sum]
      exact sum_congr rfl fun b _ => (mul_assoc _ _ _).symm
    rw [this, sumIdx_sum]
    exact sum_congr rfl fun b _ => by unfold colsOmega; rw [sumIdx_mul]
  rw [← List.take_append_drop k i, oblique_get_cols hk (hi.take _) (hi.drop _), hB _ _ (hi.take _) (hi.drop _)]
  have hC := hC _ (hi.take k)
  have g : ∀ c < l, ∀ b < r, ∑ t ∈ range r, ∑ s ∈ range l, colsOmega A.shape L M k c t * G t s * colsOmega A.shape L M k s b
      = colsOmega A.shape L M k c b := by
    intro c hc b hb
    have := congrFun (congrFun hG ⟨c, hc⟩) ⟨b, hb⟩
    rw [Matrix.mul_assoc, Matrix.mul_apply] at this
    change _ = colsOmega A.shape L M k c b at this
    rw [← this, sum_range]
    refine sum_congr rfl fun t _ => ?_
    rw [Matrix.mul_apply, mul_sum, sum_range]
    exact sum_congr rfl fun s _ => mul_assoc _ _ _
  have hq : InR (A.shape.drop k) (i.drop k) := hi.drop _
  generalize i.take k = p at hC
  have hls : ∀ a, leftSketch A L k a (i.drop k) = ∑ b ∈ range r, colsOmega A.shape L M k a b * B b (i.drop k) :=
    fun a => by
      have := hls a (i.drop k) hq
      exact this
  generalize i.drop k = q at hls
  generalize colsOmega A.shape L M k = O at g hC hls
  generalize M k p = W at hC
  generalize C p = C at hC
  have key : ∀ b < r, ∑ t ∈ range r, W t * ∑ s ∈ range l, G t s * O s b = W b := by
    intro b hb
    have e : ∀ t ∈ range r, W t * ∑ s ∈ range l, G t s * O s b
        = ∑ c ∈ range l, C c * ∑ s ∈ range l, O c t * G t s * O s b := by
      intro t ht
      rw [hC t (by simpa using ht), sum_mul]
      refine sum_congr rfl fun c _ => ?_
      rw [mul_assoc, mul_sum (a := O c t)]
      congr 1
      exact sum_congr rfl fun s _ => by ring
    rw [sum_congr rfl e, sum_comm, hC b hb]
    refine sum_congr rfl fun c hc => ?_
    rw [← mul_sum, g c (by simpa using hc) b hb]
  have e : ∀ t, W t * ∑ c ∈ range l, G t c * leftSketch A L k c q
      = ∑ b ∈ range r, W t * (∑ s ∈ range l, G t s * O s b) * B b q := by
    intro t
    rw [← sum_congr rfl fun b _ => (mul_assoc (W t) _ (B b q)).symm, ← mul_sum]
    congr 1
    rw [sum_congr rfl fun c _ => by rw [hls c, mul_sum], sum_comm]
    refine sum_congr rfl fun b _ => ?_
    rw [sum_mul]
    exact sum_congr rfl fun s _ => by ring
  rw [sum_congr rfl fun t _ => e t, sum_comm]
  refine sum_congr rfl fun b hb => ?_
  rw [← sum_mul, key b (by simpa using hb)]

theorem obliques_self {A : ND ℝ} {L : Mats ℝ} {M : ℕ → List ℕ → ℕ → ℝ} {lr rr : List ℕ} {G : ℕ → ℕ → ℕ → ℝ} {n : ℕ}
    (h : ∀ k < n, obliqueCols A L M (k + 1) (lr.getD k 0) (rr.getD k 0) (G k) A = A) :
    ∀ k ≤ n, obliquesCols A L M lr rr G k A = A
  | 0, _ => rfl
  | k + 1, hk => by
    show obliquesCols A L M lr rr G k (obliqueCols A L M (k + 1) (lr.getD k 0) (rr.getD k 0) (G k) A) = A
    rw [h k (by omega)]
    exact obliques_self h k (by omega)

/-- **C39, every format** (lazy sums of different formats included). If every unfolding factors through its sketched
columns (`X_mu = M_mu B_mu`) and the left sketch loses none of their rows (`M_mu = C_mu Omega_mu`), the streaming sketch
determines the tensor: `C_cores` in both directions and `to_tt` denote it exactly. -/
theorem C39_recovery_all (env : Env ℝ) (hE : MPContract env) (X : Tensor ℝ) (lrank rrank : RankArg) (kw : SketchKw ℝ)
    (S : Sketched ℝ) (hkw : kw.Good) (hX : X.Valid) (hne : X.NonEmpty) (hd : 2 ≤ X.shape.length) (hdist : X.Distinct)
    (h : streamSketch env X lrank rrank kw = .ok S)
    (hB : ∀ mu < X.shape.length - 1, ∃ B : ℕ → List ℕ → ℝ, ∀ p q, InR (X.shape.take (mu + 1)) p →
      InR (X.shape.drop (mu + 1)) q → X.toNumpy.get (p ++ q)
        = ∑ b ∈ range (S.rightRank.getD mu 0), X.rightCols env S.right (mu + 1) p b * B b q)
    (hC : ∀ mu < X.shape.length - 1, ∃ C : List ℕ → ℕ → ℝ, ∀ p, InR (X.shape.take (mu + 1)) p →
      ∀ b < S.rightRank.getD mu 0, X.rightCols env S.right (mu + 1) p b
        = ∑ c ∈ range (S.leftRank.getD mu 0), C p c
          * colsOmega X.shape (S.left.leftMats env) (X.rightCols env S.right) (mu + 1) c b) :
    (∀ dir, dir ≠ Direction.other → ∃ cs, S.cCores env dir = .ok cs ∧ (TT.mk cs).Valid ∧
      (TT.mk cs).toNumpy = X.toNumpy) ∧
    ∃ Y, S.toTT env = .ok Y ∧ Y.Valid ∧ Y.toNumpy = X.toNumpy := by
  obtain ⟨k1, Y, y1, y2, y3⟩ := C70_stream_all env hE X lrank rrank kw S hkw hX hne hd hdist h
  have hsh := Tensor.toNumpy_shape hX
  have key : ∀ Z, StreamApproxCols X.toNumpy (S.left.leftMats env) (X.rightCols env S.right) S.leftRank S.rightRank Z →
      Z = X.toNumpy := by
    intro Z hZ
    obtain ⟨G, hG⟩ := pinvs_exist_cols X.toNumpy (S.left.leftMats env) (X.rightCols env S.right) S.leftRank S.rightRank
    rw [hZ.product G hG]
    refine obliques_self (fun mu hmu => ?_) _ le_rfl
    have hmu' := hmu
    rw [hsh] at hmu'
    obtain ⟨B, hB⟩ := hB mu hmu'
    obtain ⟨C, hC⟩ := hC mu hmu'
    refine oblique_self (by omega) (hG mu hmu).aga (B := B) (C := C) ?_ ?_
    · rw [hsh]; exact hB
    · rw [hsh]; exact hC
  refine ⟨fun dir hdir => ?_, Y, y1, y2, key _ y3⟩
  obtain ⟨cs, c1, c2, c3⟩ := k1 dir hdir
  exact ⟨cs, c1, c2, key _ c3⟩

/-- Bounds of the norms exist. -/
theorem normBounds_exist_cols (A : ND ℝ) (L : Mats ℝ) (M : ℕ → List ℕ → ℕ → ℝ) (lr rr : List ℕ) (G : ℕ → ℕ → ℕ → ℝ) :
    ∃ c, NormBoundsCols A L M lr rr G c := by
  have key : ∀ mu, ∃ c : ℝ, 0 ≤ c ∧ (mu < A.shape.length - 1 → ∀ Z : ND ℝ, Z.shape = A.shape →
      √(normSq (obliqueCols A L M (mu + 1) (lr.getD mu 0) (rr.getD mu 0) (G mu) Z)) ≤ c * √(normSq Z)) := by
    intro mu
    let T : E A.shape →ₗ[ℝ] E A.shape :=
      { toFun := fun v => vec A.shape fun i => ∑ b ∈ range (rr.getD mu 0), M (mu + 1) (i.take (mu + 1)) b
          * ∑ a ∈ range (lr.getD mu 0), G mu b a * sumIdx (A.shape.take (mu + 1)) fun p => L (mu + 1) p a
            * ext A.shape v (p ++ i.drop (mu + 1))
        map_add' := by
          intro v w
          rw [← map_add]
          congr 1
          funext i
          simp only [map_add, Pi.add_apply, mul_add, sumIdx_add, sum_add_distrib]
        map_smul' := by
          intro x v
          refine Eq.trans ?_ (map_smul (vec A.shape) x _)
          congr 1
          funext i
          simp only [map_smul, Pi.smul_apply, smul_eq_mul]
          rw [mul_sum]
          refine sum_congr rfl fun b _ => ?_
          rw [mul_left_comm x]
          congr 1
          rw [mul_sum]
          refine sum_congr rfl fun a _ => ?_
          rw [mul_left_comm x]
          congr 1
          rw [mul_sumIdx]
          exact sumIdx_congr fun p _ => by ring }
    refine ⟨‖LinearMap.toContinuousLinearMap T‖, norm_nonneg _, fun hmu Z hZ => ?_⟩
    have h1 := (LinearMap.toContinuousLinearMap T).le_opNorm (vec A.shape Z.get)
    rw [sqrt_normSq, sqrt_normSq, hZ, oblique_shape_cols]
    refine le_of_eq_of_le ?_ h1
    congr 1
    rw [LinearMap.coe_toContinuousLinearMap']
    simp only [T, LinearMap.coe_mk, AddHom.coe_mk]
    refine vec_eq.2 ?_
    intro i hi
    rw [← List.take_append_drop (mu + 1) i, oblique_get_cols (by omega) (hi.take _) (hi.drop _)]
    rw [List.take_append_drop]
    refine sum_congr rfl fun b _ => ?_
    congr 1
    refine sum_congr rfl fun a _ => ?_
    congr 1
    unfold leftSketch
    rw [hZ]
    refine sumIdx_congr fun p hp => ?_
    rw [ext_vec]
    have := hp.append (hi.drop (mu + 1))
    rwa [List.take_append_drop] at this
  choose c h1 h2 using key
  exact ⟨c, fun mu hmu => ⟨h1 mu, h2 mu hmu⟩⟩

/-! ### Example -/

/-- A lazy sum of a Tucker tensor and a dense array, drawn DRMs. -/
example : ∃ S l r Y, streamSketch env70 y61 (.int 1) (.int 2) { seed := some 7 } = .ok S ∧
    S.cCores env70 .left = .ok l ∧ S.cCores env70 .right = .ok r ∧ S.toTT env70 = .ok Y ∧
      (TT.mk l).toNumpy = (TT.mk r).toNumpy ∧ Y.toNumpy = (TT.mk r).toNumpy ∧
      ∃ G c, PinvsOfCols y61.toNumpy (S.left.leftMats env70) (y61.rightCols env70 S.right) S.leftRank S.rightRank G ∧
        NormBoundsCols y61.toNumpy (S.left.leftMats env70) (y61.rightCols env70 S.right) S.leftRank S.rightRank G c := by
  obtain ⟨S, hS⟩ := C33_success env70 y61 (.int 1) (.int 2) (some 7) none none y61_valid (by decide) rfl rfl
    (.inl (by decide)) (by decide) fun t _ D hD => supports_tt D (by rcases hD with h | h <;> exact h) t
  obtain ⟨l, r, Y, h⟩ := C70_directions_all env70 (mpChoice_contract rfl) y61 (.int 1) (.int 2) _ S
    (SketchKw.good_none _ _ _) y61_valid (List.cons_ne_nil _ _) (by decide) y61_distinct hS
  obtain ⟨G, hG⟩ := pinvs_exist_cols y61.toNumpy (S.left.leftMats env70) (y61.rightCols env70 S.right) S.leftRank S.rightRank
  obtain ⟨c, hc⟩ := normBounds_exist_cols y61.toNumpy (S.left.leftMats env70) (y61.rightCols env70 S.right) S.leftRank
    S.rightRank G
  exact ⟨S, l, r, Y, hS, h.1, h.2.1, h.2.2.1, h.2.2.2.1, h.2.2.2.2, G, c, hG, hc⟩

/-- All hypotheses of `C39_recovery_all`: the same sum with the DRMs `l8`, `r8` is recovered. -/
example : ∃ S Y, streamSketch env70 y61 (.seq [1, 1]) (.seq [2, 2]) { left := some l8, right := some r8 } = .ok S ∧
    S.toTT env70 = .ok Y ∧ Y.toNumpy = y61.toNumpy := by
  have hkw : ({ left := some l8, right := some r8 } : SketchKw ℝ).Good :=
    ⟨fun D h => by cases h; exact ⟨l8_wf.1, l8_wf.2, rfl⟩, fun D h => by cases h; exact ⟨r8_wf.1, r8_wf.2, rfl⟩⟩
  obtain ⟨c1, c2⟩ := y61_cols env70
  obtain ⟨m1, m2⟩ := l8_mat env70
  have hS := stream_supplied (env := env70) none none none (y61_acc l8_wf rfl rfl) (y61_acc r8_wf rfl rfl) rfl rfl
    (.inl (by decide))
  obtain ⟨-, Y, y1, -, y2⟩ := C39_recovery_all env70 (mpChoice_contract rfl) y61 _ _ _ _ hkw y61_valid (List.cons_ne_nil _ _)
    (by decide) y61_distinct hS (y61_factors env70) (by
      refine two_cases ⟨fun _ _ => 1 / 2, fun p hp b hb => ?_⟩ ⟨fun _ _ => 1 / 6, fun p hp b hb => ?_⟩
      · have e : colsOmega y61.shape (l8.leftMats env70) (y61.rightCols env70 r8) 1 0 b = 72 := by
          show (sumIdx [2] fun p => l8.leftMats env70 1 p 0 * y61.rightCols env70 r8 1 p b) = 72
          rw [sumIdx_of_const (c := 36)]
          · norm_num
          · intro p hp
            rw [m1 p hp, c1 p hp b hb, one_mul]
        show y61.rightCols env70 r8 1 p b = ∑ c ∈ range 1, 1 / 2 * colsOmega y61.shape (l8.leftMats env70) (y61.rightCols env70 r8) 1 c b
        rw [c1 p hp b hb, sum_range_one, e]; norm_num
      · have e : colsOmega y61.shape (l8.leftMats env70) (y61.rightCols env70 r8) 2 0 b = 36 := by
          show (sumIdx [2, 3] fun p => l8.leftMats env70 2 p 0 * y61.rightCols env70 r8 2 p b) = 36
          rw [sumIdx_of_const (c := 6)]
          · norm_num
          · intro p hp
            rw [m2 p hp, c2 p hp b hb, one_mul]
        show y61.rightCols env70 r8 2 p b = ∑ c ∈ range 1, 1 / 6 * colsOmega y61.shape (l8.leftMats env70) (y61.rightCols env70 r8) 2 c b
        rw [c2 p hp b hb, sum_range_one, e]; norm_num)
  exact ⟨_, Y, hS, y1, y2⟩

end TTS.Props
