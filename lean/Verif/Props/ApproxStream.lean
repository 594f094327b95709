import Verif.Proofs.ApproxStream
import Verif.Props.ApproxHmt
import Verif.Props.FloatSketch
import Verif.Props.Nystrom

/-!
# C96: reconstruction of a streaming sketch with inexact least squares (and an inexact sketch)

`LstsqApproxContract`, `solveErr`, `rightBound` and `leftBound` are in `Spec/ApproxStream.lean`; `FlGeneralSketch` is in
`Model/FloatSketch.lean`, `flErr` in `Spec/Float.lean`.
-/

namespace TTS.Props

open TTS Finset
open scoped Matrix

/-- The trains of an array `A` made from any container `s` of the right shape. -/
theorem assemble_error {env : Env ℝ} {ε : ℝ} (hε : 0 ≤ ε) (hE : LstsqApproxContract env ε) {A : ND ℝ} {L R : Mats ℝ}
    {lr rr : List ℕ} {s : Container ℝ} (hd : 1 ≤ A.shape.length) (hl : lr.length = A.shape.length - 1)
    (hr : rr.length = A.shape.length - 1) (hs : s.HasShape A.shape lr rr) (hL : ∀ a, L 0 [] a = 1)
    (hR : ∀ b, R A.shape.length [] b = 1) :
    (∃ cs, assemble env s .right = .ok cs ∧ (TT.mk cs).Valid ∧ (TT.mk cs).shape = A.shape ∧ (TT.mk cs).rank = lr ∧
      ∀ (B : ℕ → ℕ → List ℕ → ℝ) (Z : ℕ → ND ℝ),
        (∀ mu < A.shape.length - 1, (Z mu).shape = [(1 :: lr).getD mu 0, A.shape.getD mu 0, lr.getD mu 0]) →
        frobD A (TT.mk cs).toNumpy ≤ rightBound ε A L R lr rr s (sketchOf A.shape A.get L R lr rr) cs B Z) ∧
    (∃ cs, assemble env s .left = .ok cs ∧ (TT.mk cs).Valid ∧ (TT.mk cs).shape = A.shape ∧ (TT.mk cs).rank = rr ∧
      ∀ (B : ℕ → List ℕ → ℕ → ℝ) (Z : ℕ → ND ℝ),
        (∀ mu < A.shape.length - 1,
          (Z mu).shape = [rr.getD mu 0, A.shape.getD (mu + 1) 0, (rr ++ [1]).getD (mu + 1) 0]) →
        frobD A (TT.mk cs).toNumpy ≤ leftBound ε A L R lr rr s (sketchOf A.shape A.get L R lr rr) cs B Z) ∧
    (assemble env s .auto = assemble env s .left ∨ assemble env s .auto = assemble env s .right) := by
  refine ⟨right_error hε hE hd hl hr hs hL hR, left_error hε hE hd hr hs hL hR, ?_⟩
  rw [assemble_auto]
  split
  · left; rfl
  · right; rfl

/-- **C96.** The sketch is exact, the least squares problems are solved with relative backward error at most `ε`.  In each
direction the reconstruction succeeds, has the shape of the tensor and the ranks of the sketch, and its distance to the
tensor is at most `rightBound` / `leftBound`, for every choice of the coefficients `B` and `Z`.  `to_tt` is one of the two. -/
theorem C96 (env : Env ℝ) (ε : ℝ) (hε : 0 ≤ ε) (hE : LstsqApproxContract env ε) (X : Tensor ℝ) (lrank rrank : RankArg)
    (kw : SketchKw ℝ) (S : Sketched ℝ) (hkw : kw.Good) (hX : X.Valid) (hne : X.NonEmpty) (hd : 2 ≤ X.shape.length)
    (hdist : X.Distinct) (hx : ∀ t ∈ X.summands, t.RightExact) (h : streamSketch env X lrank rrank kw = .ok S) :
    (∃ cs, S.cCores env .right = .ok cs ∧ (TT.mk cs).Valid ∧ (TT.mk cs).shape = X.shape ∧ (TT.mk cs).rank = S.leftRank ∧
      ∀ (B : ℕ → ℕ → List ℕ → ℝ) (Z : ℕ → ND ℝ), (∀ mu < X.shape.length - 1,
          (Z mu).shape = [(1 :: S.leftRank).getD mu 0, X.shape.getD mu 0, S.leftRank.getD mu 0]) →
        frobD X.toNumpy (TT.mk cs).toNumpy ≤ rightBound ε X.toNumpy (S.left.leftMats env) (S.right.rightMats env)
          S.leftRank S.rightRank S.sketch S.sketch cs B Z) ∧
    (∃ cs, S.cCores env .left = .ok cs ∧ (TT.mk cs).Valid ∧ (TT.mk cs).shape = X.shape ∧ (TT.mk cs).rank = S.rightRank ∧
      ∀ (B : ℕ → List ℕ → ℕ → ℝ) (Z : ℕ → ND ℝ), (∀ mu < X.shape.length - 1,
          (Z mu).shape = [S.rightRank.getD mu 0, X.shape.getD (mu + 1) 0, (S.rightRank ++ [1]).getD (mu + 1) 0]) →
        frobD X.toNumpy (TT.mk cs).toNumpy ≤ leftBound ε X.toNumpy (S.left.leftMats env) (S.right.rightMats env)
          S.leftRank S.rightRank S.sketch S.sketch cs B Z) ∧
    (S.toTT env = (S.cCores env .left).map TT.mk ∨ S.toTT env = (S.cCores env .right).map TT.mk) := by
  have e := C33_streaming env X lrank rrank kw S hkw hX hne hd hdist hx h
  obtain ⟨hs, -, -, -, hl, hr⟩ := C38_shapes env X lrank rrank kw S hkw hX hne hd h
  obtain ⟨hS, -⟩ := stream_inv hkw hX hne hd h
  have hsh := Tensor.toNumpy_shape hX
  have hsr := hS.accR.shape
  rw [← hsh] at e hl hr hd hs hsr ⊢
  obtain ⟨h1, h2, h3⟩ := assemble_error hε hE (L := S.left.leftMats env) (R := S.right.rightMats env) (by omega) hl hr hs
    (fun a => rfl) fun b => by rw [rightMats_last env (by rw [hsr])]
  rw [← e] at h1 h2
  refine ⟨h1, h2, ?_⟩
  unfold Sketched.toTT Sketched.cCores
  rcases h3 with h | h
  · left; rw [h]
  · right; rw [h]

/-- **C96, dense arrays** with any number of modes. -/
theorem C96_dense (env : Env ℝ) (ε : ℝ) (hε : 0 ≤ ε) (hE : LstsqApproxContract env ε) (X : ND ℝ) (lrank rrank : RankArg)
    (kw : SketchKw ℝ) (S : Sketched ℝ) (hkw : kw.Good) (hd : 2 ≤ X.shape.length)
    (h : streamSketch env (.leaf (.dense X)) lrank rrank kw = .ok S) :
    (∃ cs, S.cCores env .right = .ok cs ∧ (TT.mk cs).Valid ∧ (TT.mk cs).shape = X.shape ∧ (TT.mk cs).rank = S.leftRank ∧
      ∀ (B : ℕ → ℕ → List ℕ → ℝ) (Z : ℕ → ND ℝ), (∀ mu < X.shape.length - 1,
          (Z mu).shape = [(1 :: S.leftRank).getD mu 0, X.shape.getD mu 0, S.leftRank.getD mu 0]) →
        frobD X (TT.mk cs).toNumpy ≤ rightBound ε X (S.left.leftMats env) (S.right.rightMatsDense env)
          S.leftRank S.rightRank S.sketch S.sketch cs B Z) ∧
    (∃ cs, S.cCores env .left = .ok cs ∧ (TT.mk cs).Valid ∧ (TT.mk cs).shape = X.shape ∧ (TT.mk cs).rank = S.rightRank ∧
      ∀ (B : ℕ → List ℕ → ℕ → ℝ) (Z : ℕ → ND ℝ), (∀ mu < X.shape.length - 1,
          (Z mu).shape = [S.rightRank.getD mu 0, X.shape.getD (mu + 1) 0, (S.rightRank ++ [1]).getD (mu + 1) 0]) →
        frobD X (TT.mk cs).toNumpy ≤ leftBound ε X (S.left.leftMats env) (S.right.rightMatsDense env)
          S.leftRank S.rightRank S.sketch S.sketch cs B Z) ∧
    (S.toTT env = (S.cCores env .left).map TT.mk ∨ S.toTT env = (S.cCores env .right).map TT.mk) := by
  have e := C33_dense env X lrank rrank kw S hkw hd h
  obtain ⟨hs, -, -, -, hl, hr⟩ := C38_shapes env (.leaf (.dense X)) lrank rrank kw S hkw trivial trivial hd h
  obtain ⟨hS, -⟩ := stream_inv (X := .leaf (.dense X)) hkw trivial trivial hd h
  have hsh : X.shape = S.right.shape := hS.accR.shape
  obtain ⟨h1, h2, h3⟩ := assemble_error hε hE (L := S.left.leftMats env) (R := S.right.rightMatsDense env) (by omega) hl hr
    hs (fun a => rfl) fun b => by rw [rightMatsDense_last env (by rw [hsh])]
  rw [← e] at h1 h2
  refine ⟨h1, h2, ?_⟩
  unfold Sketched.toTT Sketched.cCores
  rcases h3 with h | h
  · left; rw [h]
  · right; rw [h]

/-! ### The sketch itself in floating point -/

theorem _root_.TTS.Container.Approx.hasShape {u : ℝ} {p o : ℕ → ℕ} {C S M : Container ℝ} {sh lr rr : List ℕ}
    (h : C.Approx u p o S M) (hS : S.HasShape sh lr rr) : C.HasShape sh lr rr :=
  ⟨h.shape.1.trans hS.shape, h.shape.2.1.trans hS.left, h.shape.2.2.trans hS.right, h.psiLen.trans hS.psiLen,
    h.omegaLen.trans hS.omegaLen, fun mu hmu => (h.psiShape mu).trans (hS.psi mu hmu),
    fun mu hmu => (h.omegaShape mu).trans (hS.omega mu hmu)⟩

theorem frobD_le_of_entries {A B M : ND ℝ} {c : ℝ} (hc : 0 ≤ c) (hM : M.shape = A.shape)
    (h : ∀ i, |B.get i - A.get i| ≤ c * M.get i) : frobD A B ≤ c * frobN M := by
  refine (Real.sqrt_le_left (mul_nonneg hc (frobN_nonneg _))).2 ?_
  rw [mul_pow, frobN, Real.sq_sqrt (show 0 ≤ normSq _ from sumIdx_nonneg fun _ => sq_nonneg _), normSq, hM, mul_sumIdx]
  unfold distSq
  refine sumIdx_le _ fun i _ => ?_
  have := pow_le_pow_left₀ (abs_nonneg _) (h i) 2
  rw [sq_abs, mul_pow] at this
  calc (A.get i - B.get i) ^ 2 = (B.get i - A.get i) ^ 2 := by ring
    _ ≤ _ := this

/-- **C96, sketch errors.** The differences between the exact and the computed arrays that enter the bounds of
`C96_float`. -/
theorem C96_sketch_err {u : ℝ} (hu : 0 ≤ u) {p o : ℕ → ℕ} {C S M : Container ℝ} {sh lr rr : List ℕ}
    (h : C.Approx u p o S M) (hS : S.HasShape sh lr rr) (hM : M.HasShape sh lr rr) :
    (∀ mu < sh.length, frobD (core S.psi mu) (core C.psi mu) ≤ flErr u (p mu) * frobN (core M.psi mu)) ∧
    ∀ mu < sh.length - 1, frobD (core S.omega mu) (core C.omega mu) ≤ flErr u (o mu) * frobN (core M.omega mu) := by
  have hf : ∀ n, 0 ≤ flErr u n := fun n => by
    unfold flErr
    have := one_le_pow₀ (n := n) (show 1 ≤ 1 + u by linarith)
    linarith
  refine ⟨fun mu hmu => frobD_le_of_entries (hf _) ?_ fun i => h.psi mu (by rw [hS.psiLen]; exact hmu) i,
    fun mu hmu => frobD_le_of_entries (hf _) ?_ fun i => h.omega mu (by rw [hS.omegaLen]; exact hmu) i⟩
  · exact (hM.psi mu hmu).trans (hS.psi mu hmu).symm
  · exact (hM.omega mu hmu).trans (hS.omega mu hmu).symm

/-- **C96, the whole pipeline in floating point.** `C` is what any floating-point execution of the sketch can return (any
order of summation, any individual rounding errors of size at most `u`); the reconstruction from `C` uses least squares with
backward error at most `ε`. The bounds contain the distance of `C` to the exact sketch `S.sketch`, which is bounded too. -/
theorem C96_float (env : Env ℝ) (u ε : ℝ) (hu : 0 ≤ u) (hε : 0 ≤ ε) (hE : LstsqApproxContract env ε) (X : Tensor ℝ)
    (lrank rrank : RankArg) (kw : SketchKw ℝ) (S : Sketched ℝ) (hkw : kw.Good) (hX : X.Valid) (hne : X.NonEmpty)
    (hd : 2 ≤ X.shape.length) (hdist : X.Distinct) (hx : ∀ t ∈ X.summands, t.RightExact)
    (h : streamSketch env X lrank rrank kw = .ok S) (C : Container ℝ) (hC : FlGeneralSketch u env X S.left S.right C) :
    (∃ cs, assemble env C .right = .ok cs ∧ (TT.mk cs).Valid ∧ (TT.mk cs).shape = X.shape ∧ (TT.mk cs).rank = S.leftRank ∧
      ∀ (B : ℕ → ℕ → List ℕ → ℝ) (Z : ℕ → ND ℝ), (∀ mu < X.shape.length - 1,
          (Z mu).shape = [(1 :: S.leftRank).getD mu 0, X.shape.getD mu 0, S.leftRank.getD mu 0]) →
        frobD X.toNumpy (TT.mk cs).toNumpy ≤ rightBound ε X.toNumpy (S.left.leftMats env) (S.right.rightMats env)
          S.leftRank S.rightRank C S.sketch cs B Z) ∧
    (∃ cs, assemble env C .left = .ok cs ∧ (TT.mk cs).Valid ∧ (TT.mk cs).shape = X.shape ∧ (TT.mk cs).rank = S.rightRank ∧
      ∀ (B : ℕ → List ℕ → ℕ → ℝ) (Z : ℕ → ND ℝ), (∀ mu < X.shape.length - 1,
          (Z mu).shape = [S.rightRank.getD mu 0, X.shape.getD (mu + 1) 0, (S.rightRank ++ [1]).getD (mu + 1) 0]) →
        frobD X.toNumpy (TT.mk cs).toNumpy ≤ leftBound ε X.toNumpy (S.left.leftMats env) (S.right.rightMats env)
          S.leftRank S.rightRank C S.sketch cs B Z) ∧
    (assemble env C .auto = assemble env C .left ∨ assemble env C .auto = assemble env C .right) ∧
    (∀ mu < X.shape.length, frobD (core S.sketch.psi mu) (core C.psi mu)
      ≤ flErr u (X.psiTotal S.left S.right mu) * frobN (core (sketchOf X.shape X.abs.toNumpy.get (S.left.absLeftMats env)
          (S.right.absRightMats env) S.leftRank S.rightRank).psi mu)) ∧
    ∀ mu < X.shape.length - 1, frobD (core S.sketch.omega mu) (core C.omega mu)
      ≤ flErr u (X.omegaTotal S.left S.right mu) * frobN (core (sketchOf X.shape X.abs.toNumpy.get (S.left.absLeftMats env)
          (S.right.absRightMats env) S.leftRank S.rightRank).omega mu) := by
  have e := C33_streaming env X lrank rrank kw S hkw hX hne hd hdist hx h
  obtain ⟨hs, -, -, -, hl, hr⟩ := C38_shapes env X lrank rrank kw S hkw hX hne hd h
  obtain ⟨hS, -⟩ := stream_inv hkw hX hne hd h
  have hA := C86_streaming hu hkw hX hne hd hdist hx h hC
  have hcs := hA.hasShape hs
  obtain ⟨k1, k2⟩ := C96_sketch_err hu hA hs (sketchOf_hasShape _ _ _ _ _ _)
  have hsh := Tensor.toNumpy_shape hX
  have hsr := hS.accR.shape
  rw [← hsh] at e hl hr hd hcs hsr
  obtain ⟨h1, h2, h3⟩ := assemble_error hε hE (L := S.left.leftMats env) (R := S.right.rightMats env) (by omega) hl hr hcs
    (fun a => rfl) fun b => by rw [rightMats_last env (by rw [hsr])]
  rw [← e, hsh] at h1 h2
  exact ⟨h1, h2, h3, k1, k2⟩

/-- **C96, the whole pipeline in floating point, dense arrays** with any number of modes. -/
theorem C96_float_dense (env : Env ℝ) (u ε : ℝ) (hu : 0 ≤ u) (hε : 0 ≤ ε) (hE : LstsqApproxContract env ε) (X : ND ℝ)
    (lrank rrank : RankArg) (kw : SketchKw ℝ) (S : Sketched ℝ) (hkw : kw.Good) (hd : 2 ≤ X.shape.length)
    (h : streamSketch env (.leaf (.dense X)) lrank rrank kw = .ok S) (C : Container ℝ)
    (hC : FlGeneralSketch u env (.leaf (.dense X)) S.left S.right C) :
    (∃ cs, assemble env C .right = .ok cs ∧ (TT.mk cs).Valid ∧ (TT.mk cs).shape = X.shape ∧ (TT.mk cs).rank = S.leftRank ∧
      ∀ (B : ℕ → ℕ → List ℕ → ℝ) (Z : ℕ → ND ℝ), (∀ mu < X.shape.length - 1,
          (Z mu).shape = [(1 :: S.leftRank).getD mu 0, X.shape.getD mu 0, S.leftRank.getD mu 0]) →
        frobD X (TT.mk cs).toNumpy ≤ rightBound ε X (S.left.leftMats env) (S.right.rightMatsDense env)
          S.leftRank S.rightRank C S.sketch cs B Z) ∧
    (∃ cs, assemble env C .left = .ok cs ∧ (TT.mk cs).Valid ∧ (TT.mk cs).shape = X.shape ∧ (TT.mk cs).rank = S.rightRank ∧
      ∀ (B : ℕ → List ℕ → ℕ → ℝ) (Z : ℕ → ND ℝ), (∀ mu < X.shape.length - 1,
          (Z mu).shape = [S.rightRank.getD mu 0, X.shape.getD (mu + 1) 0, (S.rightRank ++ [1]).getD (mu + 1) 0]) →
        frobD X (TT.mk cs).toNumpy ≤ leftBound ε X (S.left.leftMats env) (S.right.rightMatsDense env)
          S.leftRank S.rightRank C S.sketch cs B Z) ∧
    (assemble env C .auto = assemble env C .left ∨ assemble env C .auto = assemble env C .right) ∧
    (∀ mu < X.shape.length, frobD (core S.sketch.psi mu) (core C.psi mu)
      ≤ flErr u (Leaf.psiTotal S.left S.right (.dense X) mu) * frobN (core (sketchOf X.shape X.abs.get
          (S.left.absLeftMats env) (S.right.absRightMatsDense env) S.leftRank S.rightRank).psi mu)) ∧
    ∀ mu < X.shape.length - 1, frobD (core S.sketch.omega mu) (core C.omega mu)
      ≤ flErr u (Leaf.omegaTotal S.left S.right (.dense X) mu) * frobN (core (sketchOf X.shape X.abs.get
          (S.left.absLeftMats env) (S.right.absRightMatsDense env) S.leftRank S.rightRank).omega mu) := by
  have e := C33_dense env X lrank rrank kw S hkw hd h
  obtain ⟨hs, -, -, -, hl, hr⟩ := C38_shapes env (.leaf (.dense X)) lrank rrank kw S hkw trivial trivial hd h
  obtain ⟨hS, -⟩ := stream_inv (X := .leaf (.dense X)) hkw trivial trivial hd h
  have hsh : X.shape = S.right.shape := hS.accR.shape
  have hA := C86_dense hu hkw hd h hC
  have hcs := hA.hasShape hs
  obtain ⟨k1, k2⟩ := C96_sketch_err hu hA hs (sketchOf_hasShape _ _ _ _ _ _)
  obtain ⟨h1, h2, h3⟩ := assemble_error hε hE (L := S.left.leftMats env) (R := S.right.rightMatsDense env) (by omega) hl hr
    hcs (fun a => rfl) fun b => by rw [rightMatsDense_last env (by rw [hsh])]
  rw [← e] at h1 h2
  exact ⟨h1, h2, h3, k1, k2⟩

/-! ### Tensors whose rank the sketch keeps: only the rounding terms remain -/

theorem leftNorm_zero {D : ND ℝ} (h : ∀ i, D.get i = 0) (L : Mats ℝ) (k l : ℕ) : leftNorm D L k l = 0 := by
  unfold leftNorm
  rw [sum_eq_zero fun a _ => sumIdx_eq_zero fun q _ => ?_, Real.sqrt_zero]
  have : leftSketch D L k a q = 0 := sumIdx_eq_zero fun p _ => by rw [h, mul_zero]
  rw [this]; ring

theorem sketchedNorm_zero {D : ND ℝ} (h : ∀ i, D.get i = 0) (R : Mats ℝ) (k r : ℕ) : sketchedNorm D R k r = 0 := by
  unfold sketchedNorm
  rw [sumIdx_eq_zero fun p _ => sum_eq_zero fun b _ => ?_, Real.sqrt_zero]
  have : rightSketch D R k p b = 0 := sumIdx_eq_zero fun q _ => by rw [h, zero_mul]
  rw [this]; ring

theorem rightBound_rounding {ε : ℝ} {A : ND ℝ} {L R : Mats ℝ} {lr rr : List ℕ} {s t : Container ℝ} {C : List (ND ℝ)}
    {B : ℕ → ℕ → List ℕ → ℝ} {Z : ℕ → ND ℝ}
    (hB : ∀ mu < A.shape.length - 1, ∀ i, (colRest A R (mu + 1) (rr.getD mu 0) (B mu)).get i = 0)
    (hZ : ∀ mu < A.shape.length - 1, frobD (ND.es_ijk_kl_ijl (Z mu) (core t.omega mu)) (core t.psi mu) = 0) :
    rightBound ε A L R lr rr s t C B Z = rightRounding ε A.shape rr s t C B Z := by
  unfold rightBound rightRounding
  congr 1
  refine sum_congr rfl fun mu hmu => ?_
  have hmu : mu < A.shape.length - 1 := by simpa using hmu
  rw [leftNorm_zero (hB mu hmu), leftNorm_zero (hB mu hmu), hZ mu hmu]
  ring

theorem leftBound_rounding {ε : ℝ} {A : ND ℝ} {L R : Mats ℝ} {lr rr : List ℕ} {s t : Container ℝ} {C : List (ND ℝ)}
    {B : ℕ → List ℕ → ℕ → ℝ} {Z : ℕ → ND ℝ}
    (hB : ∀ mu < A.shape.length - 1, ∀ i, (rowRest A L (mu + 1) (lr.getD mu 0) (B mu)).get i = 0)
    (hZ : ∀ mu < A.shape.length - 1, frobD (ND.es_ij_jkl_ikl (core t.omega mu) (Z mu)) (core t.psi (mu + 1)) = 0) :
    leftBound ε A L R lr rr s t C B Z = leftRounding ε A.shape lr s t C B Z := by
  unfold leftBound leftRounding
  congr 1
  refine sum_congr rfl fun mu hmu => ?_
  have hmu : mu < A.shape.length - 1 := by simpa using hmu
  rw [sketchedNorm_zero (hB mu hmu), sketchedNorm_zero (hB mu hmu), hZ mu hmu]
  ring

theorem frobD_zero3 {A B : ND ℝ} {a b c : ℕ} (hA : A.shape = [a, b, c])
    (h : ∀ i < a, ∀ j < b, ∀ k < c, A.get [i, j, k] = B.get [i, j, k]) : frobD A B = 0 := by
  rw [frobD_eq3 hA, sum_eq_zero fun i hi => sum_eq_zero fun j hj => sum_eq_zero fun k hk => by
    rw [h i (by simpa using hi) j (by simpa using hj) k (by simpa using hk)]; ring, Real.sqrt_zero]

/-- **C96, coefficients.** If every `Omega[mu]` of the exact sketch has the rank of the unfolding, there are coefficients
`B`, `Z` for each direction (depending on the tensor and the sketching matrices only) that make all other terms of the bounds
vanish. -/
theorem C96_coeffs (A : ND ℝ) (L R : Mats ℝ) (lr rr : List ℕ) (hl : lr.length = A.shape.length - 1)
    (hr : rr.length = A.shape.length - 1)
    (hrank : ∀ mu < A.shape.length - 1,
      (((sketchOf A.shape A.get L R lr rr).omega.getD mu (ND.zeros [])).asMatrix (lr.getD mu 0) (rr.getD mu 0)).rank
        = (A.unfolding (mu + 1)).rank) :
    (∃ (B : ℕ → ℕ → List ℕ → ℝ) (Z : ℕ → ND ℝ),
      (∀ mu < A.shape.length - 1, (Z mu).shape = [(1 :: lr).getD mu 0, A.shape.getD mu 0, lr.getD mu 0]) ∧
      ∀ (ε : ℝ) (s : Container ℝ) (C : List (ND ℝ)),
        rightBound ε A L R lr rr s (sketchOf A.shape A.get L R lr rr) C B Z
          = rightRounding ε A.shape rr s (sketchOf A.shape A.get L R lr rr) C B Z) ∧
    ∃ (B : ℕ → List ℕ → ℕ → ℝ) (Z : ℕ → ND ℝ),
      (∀ mu < A.shape.length - 1,
        (Z mu).shape = [rr.getD mu 0, A.shape.getD (mu + 1) 0, (rr ++ [1]).getD (mu + 1) 0]) ∧
      ∀ (ε : ℝ) (s : Container ℝ) (C : List (ND ℝ)),
        leftBound ε A L R lr rr s (sketchOf A.shape A.get L R lr rr) C B Z
          = leftRounding ε A.shape lr s (sketchOf A.shape A.get L R lr rr) C B Z := by
  have hspan : ∀ mu < A.shape.length - 1, RowSpan A.shape A.get L (mu + 1) (lr.getD mu 0) ∧
      ColSpan A.shape A.get R (mu + 1) (rr.getD mu 0) := by
    intro mu hmu
    refine spans_of_rank A L R mu _ _ ?_
    rw [← hrank mu hmu]
    congr 1
    ext a b
    exact (sketchOf_omega_get hmu a.2 b.2).symm
  have hw := sketchOf_hasShape A.shape A.get L R lr rr
  have split : ∀ {i : List ℕ} (k : ℕ), InR A.shape i → InR (A.shape.take k) (i.take k) ∧ InR (A.shape.drop k) (i.drop k) :=
    fun k hi => ⟨hi.take k, hi.drop k⟩
  have zero_out : ∀ {g : List ℕ → ℝ}, (∀ i, InR A.shape i → g i = 0) → ∀ i, (ND.ofFn A.shape g).get i = 0 := by
    intro g hg i
    by_cases hi : InR A.shape i
    · rw [ND.ofFn_get hi, hg i hi]
    · rw [ND.ofFn_get', if_neg hi]
  constructor
  · have hB : ∀ mu, ∃ V : ℕ → List ℕ → ℝ, mu < A.shape.length - 1 →
        ∀ i, (colRest A R (mu + 1) (rr.getD mu 0) V).get i = 0 := by
      intro mu
      by_cases hmu : mu < A.shape.length - 1
      · obtain ⟨V, hV⟩ := (hspan mu hmu).2
        refine ⟨V, fun _ => zero_out fun i hi => ?_⟩
        have h1 := hV (i.take (mu + 1)) (i.drop (mu + 1)) (hi.take _) (hi.drop _)
        rw [List.take_append_drop] at h1
        rw [h1]
        exact sub_self _
      · exact ⟨fun _ _ => 0, fun h => absurd h hmu⟩
    have hZ : ∀ mu, ∃ Z : ND ℝ, mu < A.shape.length - 1 →
        Z.shape = [(1 :: lr).getD mu 0, A.shape.getD mu 0, lr.getD mu 0] ∧
        frobD (ND.es_ijk_kl_ijl Z (core (sketchOf A.shape A.get L R lr rr).omega mu))
          (core (sketchOf A.shape A.get L R lr rr).psi mu) = 0 := by
      intro mu
      by_cases hmu : mu < A.shape.length - 1
      · have hex : ∀ a j, ∃ x : ℕ → ℝ, j < A.shape.getD mu 0 → ∀ b, ∑ c ∈ range (lr.getD mu 0), x c * omegaSpec A.shape A.get L R mu c b
            = psiSpec A.shape A.get L R mu a j b := by
          intro a j
          by_cases hj : j < A.shape.getD mu 0
          · obtain ⟨x, hx⟩ := right_core_exists (L' := L) (R := R) (by omega) (hspan mu hmu).1 a j hj
            exact ⟨x, fun _ => hx⟩
          · exact ⟨fun _ => 0, fun h => absurd h hj⟩
        choose x hx using hex
        refine ⟨ND.ofFn [(1 :: lr).getD mu 0, A.shape.getD mu 0, lr.getD mu 0] fun i =>
          x (i.getD 0 0) (i.getD 1 0) (i.getD 2 0), fun _ => ⟨rfl, ?_⟩⟩
        have hO : (core (sketchOf A.shape A.get L R lr rr).omega mu).shape = _ := hw.omega mu hmu
        refine frobD_zero3 (ND.es_ijk_kl_ijl_shape rfl hO) fun a ha j hj b hb => ?_
        rw [ND.es_ijk_kl_ijl_get rfl hO]
        unfold core
        rw [sketchOf_psi_get (by omega) ha hj (by rw [List.getD_append _ _ _ _ (by omega)]; exact hb), ← hx a j hj b]
        refine sum_congr rfl fun c hc => ?_
        have hc : c < lr.getD mu 0 := by simpa using hc
        rw [ND.ofFn_get (show InR [_, _, _] [a, j, c] from ⟨ha, hj, hc, trivial⟩), sketchOf_omega_get hmu hc hb]
        rfl
      · exact ⟨ND.zeros [], fun h => absurd h hmu⟩
    choose B hB using hB
    choose Z hZ using hZ
    exact ⟨B, Z, fun mu hmu => (hZ mu hmu).1, fun ε s C => rightBound_rounding hB fun mu hmu => (hZ mu hmu).2⟩
  · have hB : ∀ mu, ∃ V : List ℕ → ℕ → ℝ, mu < A.shape.length - 1 →
        ∀ i, (rowRest A L (mu + 1) (lr.getD mu 0) V).get i = 0 := by
      intro mu
      by_cases hmu : mu < A.shape.length - 1
      · obtain ⟨V, hV⟩ := (hspan mu hmu).1
        refine ⟨V, fun _ => zero_out fun i hi => ?_⟩
        have h1 := hV (i.take (mu + 1)) (i.drop (mu + 1)) (hi.take _) (hi.drop _)
        rw [List.take_append_drop] at h1
        rw [h1]
        exact sub_self _
      · exact ⟨fun _ _ => 0, fun h => absurd h hmu⟩
    have hZ : ∀ mu, ∃ Z : ND ℝ, mu < A.shape.length - 1 →
        Z.shape = [rr.getD mu 0, A.shape.getD (mu + 1) 0, (rr ++ [1]).getD (mu + 1) 0] ∧
        frobD (ND.es_ij_jkl_ikl (core (sketchOf A.shape A.get L R lr rr).omega mu) Z)
          (core (sketchOf A.shape A.get L R lr rr).psi (mu + 1)) = 0 := by
      intro mu
      by_cases hmu : mu < A.shape.length - 1
      · have hex : ∀ j b, ∃ x : ℕ → ℝ, j < A.shape.getD (mu + 1) 0 → ∀ a, ∑ c ∈ range (rr.getD mu 0), omegaSpec A.shape A.get L R mu a c * x c
            = psiSpec A.shape A.get L R (mu + 1) a j b := by
          intro j b
          by_cases hj : j < A.shape.getD (mu + 1) 0
          · obtain ⟨x, hx⟩ := left_core_exists (L := L) (R := R) (by omega) (hspan mu hmu).2 j b hj
            exact ⟨x, fun _ => hx⟩
          · exact ⟨fun _ => 0, fun h => absurd h hj⟩
        choose x hx using hex
        refine ⟨ND.ofFn [rr.getD mu 0, A.shape.getD (mu + 1) 0, (rr ++ [1]).getD (mu + 1) 0] fun i =>
          x (i.getD 1 0) (i.getD 2 0) (i.getD 0 0), fun _ => ⟨rfl, ?_⟩⟩
        have hO : (core (sketchOf A.shape A.get L R lr rr).omega mu).shape = _ := hw.omega mu hmu
        refine frobD_zero3 (ND.es_ij_jkl_ikl_shape hO rfl) fun a ha j hj b hb => ?_
        rw [ND.es_ij_jkl_ikl_get hO rfl]
        unfold core
        rw [sketchOf_psi_get (by omega) (by rw [List.getD_cons_succ]; exact ha) hj hb, ← hx j b hj a]
        refine sum_congr rfl fun c hc => ?_
        have hc : c < rr.getD mu 0 := by simpa using hc
        rw [ND.ofFn_get (show InR [_, _, _] [c, j, b] from ⟨hc, hj, hb, trivial⟩), sketchOf_omega_get hmu ha hc]
        rfl
      · exact ⟨ND.zeros [], fun h => absurd h hmu⟩
    choose B hB using hB
    choose Z hZ using hZ
    exact ⟨B, Z, fun mu hmu => (hZ mu hmu).1, fun ε s C => leftBound_rounding hB fun mu hmu => (hZ mu hmu).2⟩

/-- **C96, recovery up to rounding.** If every `Omega[mu]` has the rank of the unfolding (the condition of `C39_recovery`),
only the rounding terms remain; the coefficients do not depend on the least squares routine. -/
theorem C96_recovery (env : Env ℝ) (X : Tensor ℝ) (lrank rrank : RankArg)
    (kw : SketchKw ℝ) (S : Sketched ℝ) (hkw : kw.Good) (hX : X.Valid) (hne : X.NonEmpty) (hd : 2 ≤ X.shape.length)
    (hdist : X.Distinct) (hx : ∀ t ∈ X.summands, t.RightExact) (h : streamSketch env X lrank rrank kw = .ok S)
    (hrank : ∀ mu < X.shape.length - 1,
      ((S.sketch.omega.getD mu (ND.zeros [])).asMatrix (S.leftRank.getD mu 0) (S.rightRank.getD mu 0)).rank
        = (X.toNumpy.unfolding (mu + 1)).rank) :
    ∃ (B : ℕ → ℕ → List ℕ → ℝ) (Z : ℕ → ND ℝ) (B' : ℕ → List ℕ → ℕ → ℝ) (Z' : ℕ → ND ℝ),
      ∀ (lsq : ND ℝ → ND ℝ → ND ℝ) (ε : ℝ), 0 ≤ ε → LstsqApproxContract { env with lstsq := lsq } ε →
      (∃ cs, S.cCores { env with lstsq := lsq } .right = .ok cs ∧ (TT.mk cs).Valid ∧ (TT.mk cs).shape = X.shape ∧
        frobD X.toNumpy (TT.mk cs).toNumpy ≤ rightRounding ε X.shape S.rightRank S.sketch S.sketch cs B Z) ∧
      (∃ cs, S.cCores { env with lstsq := lsq } .left = .ok cs ∧ (TT.mk cs).Valid ∧ (TT.mk cs).shape = X.shape ∧
        frobD X.toNumpy (TT.mk cs).toNumpy ≤ leftRounding ε X.shape S.leftRank S.sketch S.sketch cs B' Z') := by
  have e := C33_streaming env X lrank rrank kw S hkw hX hne hd hdist hx h
  obtain ⟨hs, -, -, -, hl, hr⟩ := C38_shapes env X lrank rrank kw S hkw hX hne hd h
  obtain ⟨hS, -⟩ := stream_inv hkw hX hne hd h
  have hsh := Tensor.toNumpy_shape hX
  have hsr := hS.accR.shape
  rw [← hsh] at e hl hr hd hs hsr hrank ⊢
  rw [e] at hrank
  obtain ⟨⟨B, Z, z1, z2⟩, B', Z', z3, z4⟩ := C96_coeffs X.toNumpy (S.left.leftMats env) (S.right.rightMats env) S.leftRank
    S.rightRank hl hr hrank
  refine ⟨B, Z, B', Z', fun lsq ε hε hE => ?_⟩
  obtain ⟨⟨c1, a1, a2, a3, -, a4⟩, ⟨c2, b1, b2, b3, -, b4⟩, -⟩ := assemble_error hε hE (L := S.left.leftMats env)
    (R := S.right.rightMats env) (by omega) hl hr hs
    (fun a => rfl) fun b => by rw [rightMats_last env (by rw [hsr])]
  have a4 := a4 B Z z1
  have b4 := b4 B' Z' z3
  rw [z2, ← e] at a4
  rw [z4, ← e] at b4
  exact ⟨⟨c1, a1, a2, a3, a4⟩, ⟨c2, b1, b2, b3, b4⟩⟩

/-- **C96, recovery up to rounding, dense arrays.** If every `Omega[mu]` has the rank of the unfolding (the condition of `C39_recovery`),
only the rounding terms remain; the coefficients do not depend on the least squares routine. -/
theorem C96_recovery_dense (env : Env ℝ) (X : ND ℝ) (lrank rrank : RankArg)
    (kw : SketchKw ℝ) (S : Sketched ℝ) (hkw : kw.Good) (hd : 2 ≤ X.shape.length)
    (h : streamSketch env (.leaf (.dense X)) lrank rrank kw = .ok S)
    (hrank : ∀ mu < X.shape.length - 1,
      ((S.sketch.omega.getD mu (ND.zeros [])).asMatrix (S.leftRank.getD mu 0) (S.rightRank.getD mu 0)).rank
        = (X.unfolding (mu + 1)).rank) :
    ∃ (B : ℕ → ℕ → List ℕ → ℝ) (Z : ℕ → ND ℝ) (B' : ℕ → List ℕ → ℕ → ℝ) (Z' : ℕ → ND ℝ),
      ∀ (lsq : ND ℝ → ND ℝ → ND ℝ) (ε : ℝ), 0 ≤ ε → LstsqApproxContract { env with lstsq := lsq } ε →
      (∃ cs, S.cCores { env with lstsq := lsq } .right = .ok cs ∧ (TT.mk cs).Valid ∧ (TT.mk cs).shape = X.shape ∧
        frobD X (TT.mk cs).toNumpy ≤ rightRounding ε X.shape S.rightRank S.sketch S.sketch cs B Z) ∧
      (∃ cs, S.cCores { env with lstsq := lsq } .left = .ok cs ∧ (TT.mk cs).Valid ∧ (TT.mk cs).shape = X.shape ∧
        frobD X (TT.mk cs).toNumpy ≤ leftRounding ε X.shape S.leftRank S.sketch S.sketch cs B' Z') := by
  have e := C33_dense env X lrank rrank kw S hkw hd h
  obtain ⟨hs, -, -, -, hl, hr⟩ := C38_shapes env (.leaf (.dense X)) lrank rrank kw S hkw trivial trivial hd h
  obtain ⟨hS, -⟩ := stream_inv (X := .leaf (.dense X)) hkw trivial trivial hd h
  have hsh : X.shape = S.right.shape := hS.accR.shape
  rw [e] at hrank
  obtain ⟨⟨B, Z, z1, z2⟩, B', Z', z3, z4⟩ := C96_coeffs X (S.left.leftMats env) (S.right.rightMatsDense env) S.leftRank
    S.rightRank hl hr hrank
  refine ⟨B, Z, B', Z', fun lsq ε hε hE => ?_⟩
  obtain ⟨⟨c1, a1, a2, a3, -, a4⟩, ⟨c2, b1, b2, b3, -, b4⟩, -⟩ := assemble_error hε hE (L := S.left.leftMats env)
    (R := S.right.rightMatsDense env) (by omega) hl hr hs
    (fun a => rfl) fun b => by rw [rightMatsDense_last env (by rw [hsh])]
  have a4 := a4 B Z z1
  have b4 := b4 B' Z' z3
  rw [z2, ← e] at a4
  rw [z4, ← e] at b4
  exact ⟨⟨c1, a1, a2, a3, a4⟩, ⟨c2, b1, b2, b3, b4⟩⟩

/-- **C96, size of the cores.** The bounds contain the norms of the computed cores.  If the matrix `Omega[mu]` that is used
has a right inverse `G` (direction `right`) or a left inverse `G` (direction `left`) and `ε ‖G‖ ‖Omega[mu]‖ ≤ 1/2`, then the
core is at most `4 (1 + ε) ‖G‖ ‖Psi‖`.  (`s` is the exact or a computed sketch.) -/
theorem C96_cores (env : Env ℝ) (ε : ℝ) (hε : 0 ≤ ε) (hE : LstsqApproxContract env ε) (s : Container ℝ) (sh lr rr : List ℕ)
    (hd : 1 ≤ sh.length) (hl : lr.length = sh.length - 1) (hr : rr.length = sh.length - 1) (hs : s.HasShape sh lr rr)
    (cs : List (ND ℝ)) (mu : ℕ) (hmu : mu < sh.length - 1) (G : ND ℝ) (hG : G.shape = [rr.getD mu 0, lr.getD mu 0])
    (hsmall : ε * frobN G * frobN (core s.omega mu) ≤ 1 / 2) :
    (assemble env s .right = .ok cs →
      (core s.omega mu).asMatrix (lr.getD mu 0) (rr.getD mu 0) * G.asMatrix (rr.getD mu 0) (lr.getD mu 0) = 1 →
      frobN (core cs mu) ≤ 4 * (1 + ε) * frobN G * frobN (core s.psi mu)) ∧
    (assemble env s .left = .ok cs →
      G.asMatrix (rr.getD mu 0) (lr.getD mu 0) * (core s.omega mu).asMatrix (lr.getD mu 0) (rr.getD mu 0) = 1 →
      frobN (core cs (mu + 1)) ≤ 4 * (1 + ε) * frobN G * frobN (core s.psi (mu + 1))) := by
  refine ⟨fun h hi => right_core_norm hε hE hd hl hr hs h hmu hG (fun a ha c hc => ?_) hsmall,
    fun h hi => left_core_norm hε hE hd hr hs h hmu hG (fun a ha c hc => ?_) hsmall⟩
  all_goals
    have := congrFun (congrFun hi ⟨a, ha⟩) ⟨c, hc⟩
    rw [Matrix.mul_apply, Matrix.one_apply] at this
    rw [sum_range]
    simp only [Fin.mk.injEq] at this
    exact this

/-! ### Routines that meet the contract -/

/-- The Moore-Penrose inverse gives least squares solutions. -/
theorem pinv_min {m n : ℕ} {A : Matrix (Fin m) (Fin n) ℝ} {G : Matrix (Fin n) (Fin m) ℝ} (hG : IsPinv A G) (b : Fin m → ℝ)
    (z : Fin n → ℝ) : ∑ i, (A.mulVec (G.mulVec b) i - b i) ^ 2 ≤ ∑ i, (A.mulVec z i - b i) ^ 2 := by
  have ort : ∑ i, (A.mulVec z i - A.mulVec (G.mulVec b) i) * (A.mulVec (G.mulVec b) i - b i) = 0 := by
    have h1 : Aᵀ.mulVec (A.mulVec (G.mulVec b) - b) = 0 := by
      have h2 : Aᵀ * (A * G) = Aᵀ := by
        have := congrArg Matrix.transpose hG.aga
        rwa [Matrix.transpose_mul, hG.ag] at this
      rw [Matrix.mulVec_sub, Matrix.mulVec_mulVec, Matrix.mulVec_mulVec, Matrix.mul_assoc, h2, sub_self]
    have h3 : (z - G.mulVec b) ⬝ᵥ Aᵀ.mulVec (A.mulVec (G.mulVec b) - b) = 0 := by rw [h1, dotProduct_zero]
    rw [Matrix.dotProduct_mulVec, Matrix.vecMul_transpose, Matrix.mulVec_sub] at h3
    exact h3
  have e : ∀ i, (A.mulVec z i - b i) ^ 2 = (A.mulVec z i - A.mulVec (G.mulVec b) i) ^ 2
      + 2 * ((A.mulVec z i - A.mulVec (G.mulVec b) i) * (A.mulVec (G.mulVec b) i - b i))
      + (A.mulVec (G.mulVec b) i - b i) ^ 2 := fun i => by ring
  rw [sum_congr rfl fun i _ => e i, sum_add_distrib, sum_add_distrib, ← mul_sum, ort]
  have : 0 ≤ ∑ i, (A.mulVec z i - A.mulVec (G.mulVec b) i) ^ 2 := sum_nonneg fun _ _ => sq_nonneg _
  linarith

/-- A routine that solves another problem: `(A / (1 + ε)) x ≈ (1 + ε) B`. -/
noncomputable def badLstsq (ε : ℝ) (A B : ND ℝ) : ND ℝ :=
  ND.ofFn [A.dim 1, B.dim 1] fun i => (1 + ε) ^ 2 * (mpChoice A B).get i

theorem badLstsq_approx {ε : ℝ} (hε : 0 ≤ ε) {env : Env ℝ} (h : env.lstsq = badLstsq ε) : LstsqApproxContract env ε := by
  intro A B m n k hA hB
  have hA1 : A.dim 1 = n := by simp [ND.dim, hA]
  have hB1 : B.dim 1 = k := by simp [ND.dim, hB]
  obtain ⟨G, hG, hGB⟩ := mpChoice_contract (env := { env with lstsq := mpChoice }) rfl A m n hA
  obtain ⟨g1, g2⟩ := hGB B k hB
  have hne : 1 + ε ≠ 0 := by linarith
  rw [h]
  refine ⟨by rw [badLstsq, hA1, hB1]; rfl, fun j hj => ⟨ND.ofFn [m, n] fun i => A.get i / (1 + ε), fun i =>
    (1 + ε) * B.get [i, j], ?_, ?_, fun z => ?_⟩⟩
  · refine (Real.sqrt_le_left (mul_nonneg hε (frobN_nonneg _))).2 ?_
    rw [mul_pow, frobN, Real.sq_sqrt (show 0 ≤ normSq _ from sumIdx_nonneg fun _ => sq_nonneg _), normSq, mul_sumIdx]
    unfold distSq
    refine sumIdx_le _ fun i hi => ?_
    rw [hA] at hi
    rw [ND.ofFn_get hi]
    have e : A.get i - A.get i / (1 + ε) = (ε / (1 + ε)) * A.get i := by field_simp; ring
    rw [e, mul_pow]
    refine mul_le_mul_of_nonneg_right (pow_le_pow_left₀ (div_nonneg hε (by linarith)) (div_le_self hε (by linarith)) 2)
      (sq_nonneg _)
  · refine (Real.sqrt_le_left (mul_nonneg hε (Real.sqrt_nonneg _))).2 ?_
    rw [mul_pow, Real.sq_sqrt (sum_nonneg fun _ _ => sq_nonneg _), mul_sum]
    refine le_of_eq (sum_congr rfl fun i _ => ?_)
    ring
  · have hcol : ∀ t : Fin n, (mpChoice A B).get [t, j] = G.mulVec (fun s => B.get [s, j]) t := by
      intro t
      exact congrFun (congrFun g2 t) ⟨j, hj⟩
    have key := pinv_min hG (fun s => B.get [s, j]) fun t => z t / (1 + ε) ^ 2
    have l1 : ∑ i ∈ range m, (∑ t ∈ range n, (ND.ofFn [m, n] fun i => A.get i / (1 + ε)).get [i, t]
        * (badLstsq ε A B).get [t, j] - (1 + ε) * B.get [i, j]) ^ 2
        = (1 + ε) ^ 2 * ∑ i, ((A.asMatrix m n).mulVec (G.mulVec fun s => B.get [s, j]) i - B.get [i, j]) ^ 2 := by
      rw [sum_range, mul_sum]
      refine sum_congr rfl fun i _ => ?_
      rw [← mul_pow]
      congr 1
      rw [sum_range, mul_sub, Matrix.mulVec, dotProduct, mul_sum]
      congr 1
      refine sum_congr rfl fun t _ => ?_
      rw [ND.ofFn_get (show InR [m, n] [(i : ℕ), (t : ℕ)] from ⟨i.2, t.2, trivial⟩), badLstsq, hA1, hB1,
        ND.ofFn_get (show InR [n, k] [(t : ℕ), j] from ⟨t.2, hj, trivial⟩), hcol t]
      show A.get [(i : ℕ), (t : ℕ)] / (1 + ε) * _ = (1 + ε) * (A.get [(i : ℕ), (t : ℕ)] * _)
      field_simp
    have l2 : ∑ i ∈ range m, (∑ t ∈ range n, (ND.ofFn [m, n] fun i => A.get i / (1 + ε)).get [i, t]
        * z t - (1 + ε) * B.get [i, j]) ^ 2
        = (1 + ε) ^ 2 * ∑ i, ((A.asMatrix m n).mulVec (fun t => z t / (1 + ε) ^ 2) i - B.get [i, j]) ^ 2 := by
      rw [sum_range, mul_sum]
      refine sum_congr rfl fun i _ => ?_
      rw [← mul_pow]
      congr 1
      rw [sum_range, mul_sub, Matrix.mulVec, dotProduct, mul_sum]
      congr 1
      refine sum_congr rfl fun t _ => ?_
      rw [ND.ofFn_get (show InR [m, n] [(i : ℕ), (t : ℕ)] from ⟨i.2, t.2, trivial⟩)]
      show A.get [(i : ℕ), (t : ℕ)] / (1 + ε) * _ = (1 + ε) * (A.get [(i : ℕ), (t : ℕ)] * _)
      field_simp
    rw [l1, l2]
    exact mul_le_mul_of_nonneg_left key (sq_nonneg _)

/-- An exact routine has error `0`. -/
theorem lstsqApprox_of_pinv {env : Env ℝ} (h : MPContract env) : LstsqApproxContract env 0 := by
  intro A B m n k hA hB
  obtain ⟨G, hG, hGB⟩ := h A m n hA
  obtain ⟨g1, g2⟩ := hGB B k hB
  refine ⟨g1, fun j hj => ⟨A, fun i => B.get [i, j], by rw [frobD_self]; simp, by simp, fun z => ?_⟩⟩
  have hcol : ∀ t : Fin n, (env.lstsq A B).get [t, j] = G.mulVec (fun s => B.get [s, j]) t := fun t =>
    congrFun (congrFun g2 t) ⟨j, hj⟩
  have key := pinv_min hG (fun s => B.get [s, j]) fun t => z t
  have l : ∀ (x : ℕ → ℝ), ∑ i ∈ range m, (∑ t ∈ range n, A.get [i, t] * x t - B.get [i, j]) ^ 2
      = ∑ i, ((A.asMatrix m n).mulVec (fun t => x t) i - B.get [i, j]) ^ 2 := by
    intro x
    rw [sum_range]
    refine sum_congr rfl fun i _ => ?_
    rw [sum_range]
    rfl
  rw [l, l]
  have e : (fun t : Fin n => (env.lstsq A B).get [t, j]) = G.mulVec fun s => B.get [s, j] := funext hcol
  rw [e]
  exact key

/-! ### Example -/

noncomputable def badLsEnv (ε : ℝ) : Env ℝ := { env61 with lstsq := badLstsq ε }

example (ε : ℝ) (hε : 0 ≤ ε) : ∃ S cs, streamSketch (badLsEnv ε) (.leaf (.sparse x61)) (.int 1) (.int 2) { seed := some 3 } = .ok S ∧
    S.cCores (badLsEnv ε) .right = .ok cs ∧ ∀ (B : ℕ → ℕ → List ℕ → ℝ) (Z : ℕ → ND ℝ), (∀ mu < 2,
          (Z mu).shape = [(1 :: S.leftRank).getD mu 0, [2, 3, 2].getD mu 0, S.leftRank.getD mu 0]) →
        frobD x61.toNumpy (TT.mk cs).toNumpy ≤ rightBound ε x61.toNumpy (S.left.leftMats (badLsEnv ε))
          (S.right.rightMats (badLsEnv ε)) S.leftRank S.rightRank S.sketch S.sketch cs B Z := by
  obtain ⟨S, hS⟩ := C33_success (badLsEnv ε) (.leaf (.sparse x61)) (.int 1) (.int 2) (some 3) none none x61_valid (by decide)
    rfl rfl (.inl (by decide)) (by decide) fun t _ D hD => supports_tt D (by rcases hD with h | h <;> exact h) t
  obtain ⟨⟨cs, h1, -, -, -, h2⟩, -⟩ := C96 (badLsEnv ε) ε hε (badLstsq_approx hε rfl) _ _ _ _ S (SketchKw.good_none _ _ _)
    x61_valid trivial (by decide) x61_distinct x61_exact hS
  exact ⟨S, cs, hS, h1, h2⟩

end TTS.Props
