import Verif.Proofs.OrthErr
import Verif.Spec.OrthErr
import Verif.Props.Orth

namespace TTS

open Finset TTS.Props

/-- The last core of a finished run. -/
theorem orthRun_last {env : Env ℝ} {sh : List ℕ} {f : List ℕ → ℝ} {R : Mats ℝ} {lr rr : List ℕ}
    {om : Option (List (ND ℝ))} {cs : List (ND ℝ)} (h : OrthRun env sh f R lr rr om cs sh.length)
    (hd : 1 ≤ sh.length) (hl : lr.length = sh.length - 1) (hr : rr.length = sh.length - 1)
    (hR : ∀ b, R sh.length [] b = 1) : ∀ a < (1 :: lr ++ [1]).getD (sh.length - 1) 0, ∀ j < sh.getD (sh.length - 1) 0,
      (cs.getD (sh.length - 1) (ND.zeros [])).get [a, j, 0] = pcL sh f (coreMats cs) (sh.length - 1) a [j] := by
  intro a ha j hj
  rw [aug_left (by omega)] at ha
  rw [h.last (sh.length - 1) (by omega) (by omega), psiOf, ND.ofFn_get]
  · exact psiSpec_last hd hR _ _ _
  · refine ⟨ha, hj, ?_, trivial⟩
    rw [List.getD_append_right _ _ _ _ (by omega), hr, Nat.sub_self]; exact Nat.one_pos

section
variable {env : Env ℝ} {A : ND ℝ} {R : Mats ℝ} {lr rr : List ℕ} {om : Option (List (ND ℝ))} {Y : TT ℝ}

theorem frame_projects
    (hd : 1 ≤ A.shape.length) (hl : lr.length = A.shape.length - 1) (hlen : Y.cores.length = A.shape.length)
    (hC : Cores Y.cores (fun k => (1 :: lr ++ [1]).getD k 0) (fun k => A.shape.getD k 0))
    (ho : ∀ mu < A.shape.length - 1, (Y.cores.getD mu (ND.zeros [])).LeftOrthogonal)
    (hlast : ∀ a < (1 :: lr ++ [1]).getD (A.shape.length - 1) 0, ∀ j < A.shape.getD (A.shape.length - 1) 0,
      (Y.cores.getD (A.shape.length - 1) (ND.zeros [])).get [a, j, 0]
        = pcL A.shape A.get (coreMats Y.cores) (A.shape.length - 1) a [j]) :
    ProjectsOntoFrame A Y := by
  obtain ⟨v1, v2, -⟩ := cores_tt hC hd hlen hl
  have v1 : Y.Valid := v1
  have v2 : Y.shape = A.shape := v2
  have hin : ∀ Z : TT ℝ, Z.Valid → Z.cores.dropLast = Y.cores.dropLast →
      sumIdx A.shape (fun i => A.get i * ttEntry Z i) = sumIdx A.shape fun i => ttEntry Y i * ttEntry Z i :=
    fun Z hZ hdl => frame_inner hC rfl (aug_last (by omega)) (fun _ => rfl) hd hlen ho hlast hZ hdl
  have hY := hin Y v1 rfl
  have e0 : ∀ Z : TT ℝ, Z.Valid → Z.shape = A.shape → ∀ g : List ℕ → ℝ → ℝ,
      sumIdx A.shape (fun i => g i (Z.toNumpy.get i)) = sumIdx A.shape fun i => g i (ttEntry Z i) :=
    fun Z hZ hs g => sumIdx_congr fun i _ => by rw [TT.toNumpy_get hZ]
  have d0 : ∀ Z : TT ℝ, Z.Valid → Z.shape = A.shape →
      distSq A Z.toNumpy = sumIdx A.shape fun i => (A.get i - ttEntry Z i) ^ 2 :=
    fun Z hZ hs => e0 Z hZ hs fun i z => (A.get i - z) ^ 2
  have n0 : normSq Y.toNumpy = sumIdx A.shape fun i => ttEntry Y i ^ 2 := by
    unfold normSq
    rw [TT.toNumpy_shape v1, v2]
    exact e0 Y v1 v2 fun _ z => z ^ 2
  refine ⟨fun Z hZ hs hdl => ?_, fun Z hZ hs hdl => ?_, ?_⟩
  · unfold innerND
    rw [TT.toNumpy_shape v1, v2, e0 Z hZ hs fun i z => A.get i * z, e0 Z hZ hs fun i z => Y.toNumpy.get i * z,
      e0 Y v1 v2 fun i y => y * ttEntry Z i]
    exact hin Z hZ hdl
  · rw [d0 Y v1 v2, d0 Z hZ hs, frame_pythagoras (hin Z hZ hdl) hY]
    have : 0 ≤ sumIdx A.shape fun i => (ttEntry Y i - ttEntry Z i) ^ 2 := sumIdx_nonneg fun i => sq_nonneg _
    linarith
  · rw [d0 Y v1 v2, n0, normSq]
    have := frame_pythagoras (f := A.get) (g := fun _ => 0) (y := ttEntry Y) (sh := A.shape) (by simp) hY
    simp only [sub_zero] at this
    rw [this, add_comm]

theorem orthRun_projects (hE : LstsqContract env) (hQ : QRContract env)
    (h : OrthRun env A.shape A.get R lr rr om Y.cores A.shape.length)
    (hd : 1 ≤ A.shape.length) (hl : lr.length = A.shape.length - 1) (hr : rr.length = A.shape.length - 1)
    (hom : OmShapes lr rr A.shape.length om) (hR : ∀ b, R A.shape.length [] b = 1)
    (hpos : ∀ mu < A.shape.length - 1, 0 < (1 :: lr).getD mu 0 * A.shape.getD mu 0) :
    ProjectsOntoFrame A Y :=
  frame_projects hd hl h.len (orthRun_shape h hl hr hom le_rfl) (orthRun_orth hE hQ h hl hr hom hpos)
    (orthRun_last h hd hl hr hR)

/-- The error is at most the sum of the errors of the bonds. -/
theorem orthRun_error (hE : LstsqContract env) (hQ : QRContract env)
    (h : OrthRun env A.shape A.get R lr rr om Y.cores A.shape.length)
    (hd : 1 ≤ A.shape.length) (hl : lr.length = A.shape.length - 1) (hr : rr.length = A.shape.length - 1)
    (hom : OmShapes lr rr A.shape.length om) (hR : ∀ b, R A.shape.length [] b = 1)
    (hpos : ∀ mu < A.shape.length - 1, 0 < (1 :: lr).getD mu 0 * A.shape.getD mu 0)
    (U : ℕ → ℕ → List ℕ → ℝ)
    (hy : ∀ mu < A.shape.length - 1, ∃ y : ℕ → List ℕ → ℝ, ∀ a < (1 :: lr).getD mu 0, ∀ j < A.shape.getD mu 0, ∀ q,
      ∑ t ∈ range (lr.getD mu 0), (Y.cores.getD mu (ND.zeros [])).get [a, j, t] * y t q
        = ∑ b ∈ range (rr.getD mu 0), (psiOf A.shape A.get R lr rr Y.cores mu).get [a, j, b] * U mu b q) :
    distSq A Y.toNumpy ≤ ∑ mu ∈ range (A.shape.length - 1), rangeErrSq A R (mu + 1) (rr.getD mu 0) (U mu) := by
  have hP := orthRun_projects hE hQ h hd hl hr hom hR hpos
  have hC := orthRun_shape h hl hr hom le_rfl
  have ho := orthRun_orth hE hQ h hl hr hom hpos
  have hlast := orthRun_last h hd hl hr hR
  have hlen : Y.cores.length = A.shape.length := h.len
  obtain ⟨v1, v2, -⟩ := cores_tt hC hd hlen hl
  have v1 : Y.Valid := v1
  have v2 : Y.shape = A.shape := v2
  have n0 : normSq Y.toNumpy = sumIdx A.shape fun i => ttEntry Y i ^ 2 := by
    unfold normSq
    rw [TT.toNumpy_shape v1, v2]
    exact sumIdx_congr fun i _ => by rw [TT.toNumpy_get v1]
  have e1 : distSq A Y.toNumpy = normSq A - normSq Y.toNumpy := by have := hP.norm; linarith
  rw [e1, n0]
  have hY : Y = TT.mk Y.cores := rfl
  rw [hY, frame_norm hC rfl (aug_last (by omega)) (fun _ => rfl) hd hlen ho hlast]
  refine frame_error hC rfl (fun _ => rfl) _ _ (by omega) (by omega) ho fun mu hmu => ?_
  obtain ⟨y, hy⟩ := hy mu hmu
  refine ⟨y, ?_⟩
  refine defect_le hC rfl (fun _ => rfl) (by omega) hlen (fun k hk => ho k (by omega)) R (rr.getD mu 0) (U mu) y ?_
  intro a ha j hj q _
  beta_reduce at ha hj ⊢
  rw [aug_left (by omega)] at ha
  rw [aug_right (by omega), hy a ha j hj q]
  exact sum_congr rfl fun b hb => by rw [psiOf_get (by omega) ha hj (by simpa using hb)]

end

/-- Method `orthogonal`: the core spans the columns of `Psi` times a generalised inverse of `Omega`. -/
theorem orthStep_pinv {env : Env ℝ} (hE : PinvContract env) (hQ : QRContract env) {O : ND ℝ} {r f : ℕ}
    (hO : O.shape = [f, r]) : ∃ G : ℕ → ℕ → ℝ,
      (∀ c < f, ∀ b < r, ∑ t ∈ range r, ∑ s ∈ range f, O.get [c, t] * G t s * O.get [s, b] = O.get [c, b]) ∧
      ∀ (P Q : ND ℝ) (a n : ℕ), P.shape = [a, n, r] → 0 < a * n → orthStep env P (some O) = .ok Q →
        ∃ y : ℕ → ℕ → ℝ, ∀ i < a, ∀ j < n, ∀ c < f,
          ∑ t ∈ range f, Q.get [i, j, t] * y t c = ∑ b ∈ range r, P.get [i, j, b] * G b c := by
  obtain ⟨G, g1, g2⟩ := hE O.matT r f (ND.matT_shape hO)
  refine ⟨fun b c => G c b, fun c hc b hb => ?_, fun P Q a n hP hpos h => ?_⟩
  · have := g1 b hb c hc
    simp only [ND.matT_get hO] at this
    rw [← this, sum_comm]
    exact sum_congr rfl fun s _ => sum_congr rfl fun t _ => by ring
  · rw [orthStep_eq hP hO] at h
    have hM := rightMulPinv_shape hE.lstsq.lstsqShape (P := P.reshape [a * n, r]) (m := a * n) rfl hO
    obtain ⟨-, -, h3⟩ := qrCore_spec hQ hM hpos h
    refine ⟨fun t c => (env.qr (rightMulPinv env (P.reshape [a * n, r]) O)).2.get [t, c], fun i hi j hj c hc => ?_⟩
    rw [h3 i hi j hj c hc]
    obtain ⟨k1, k2⟩ := g2 (P.reshape [a * n, r]).matT (a * n) (ND.matT_shape rfl)
    have hij : i * n + j < a * n := (ND.lt_mul_iff hj).2 hi
    rw [rightMulPinv, ND.matT_get k1, k2 c hc _ hij]
    refine sum_congr rfl fun b _ => ?_
    rw [ND.matT_get (A := P.reshape [a * n, r]) rfl, ND.reshape_merge12 hP i j b hj]
    ring

end TTS
