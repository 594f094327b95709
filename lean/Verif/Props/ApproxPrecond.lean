import Verif.Proofs.ApproxPrecond
import Verif.Props.ApproxRoundSum

/-!
# C100: the preconditioner in floating point linear algebra
-/

namespace TTS.Props

open Finset Spec

/-- **C100.** A preconditioner built with an inexact QR factorisation and inexact triangular solves: applying it fails with
`LinAlgError` exactly when the computed triangular factor has a zero on its diagonal; otherwise it returns a tensor train of the
same shape and ranks, and multiplying it by the matrix gives the input back up to an error that is small relative to the norms of
the cores. -/
theorem C100 {la : LinAlg2} {ε η : ℝ} (hε : 0 ≤ ε) (hη : 0 ≤ η) (hq : la.QRApprox ε) (ht : la.SolveTriApprox η) (A : ND ℝ)
    (shape : List ℕ) (mode n : ℕ) (hA : A.shape = [n, n]) (X : TT ℝ) (hX : X.Valid) (hp : X.Pos) (hm : mode < X.shape.length)
    (hn : X.shape.getD mode 0 = n) :
    ((∃ i < n, (la.qr A).2.get [i, i] = 0) → (Precond.new la A shape mode).backward la X = .error .linAlgError) ∧
    ((∀ i < n, (la.qr A).2.get [i, i] ≠ 0) → ∃ Y, (Precond.new la A shape mode).backward la X = .ok Y ∧
      (LinMap.precond (Precond.new la A shape mode)).call la X = .ok Y ∧
      Y.Valid ∧ Y.shape = X.shape ∧ Y.rank = X.rank ∧
      fnorm X.shape (fun i => modeMul (fun i j => A.get [i, j]) n mode Y.toNumpy.get i - X.toNumpy.get i)
        ≤ (ε + η * (1 + ε)) * frobN A * Y.coreNorms + ε * X.coreNorms) := by
  obtain ⟨C, a, b, h1, h2⟩ := mode_core hX hm hn
  have hd := dim_of_shape3 h2
  have hM := mat1_shape h2
  have hQR := hq A n n hA
  obtain ⟨M, P, hMs, hiq, -, -⟩ := hQR.2
  have hQs : (la.qr A).1.shape = [n, n] := by rw [hQR.1, min_self]
  have hRs : (la.qr A).2.shape = [n, n] := by rw [hiq.shapeR, min_self]
  have hQM := ND.matmul_shape' (ND.matT_shape hQs) hM
  have hab := mode_core_pos hX hp hm h1 h2
  have hsolve := ht (la.qr A).2 _ n (a * b) hRs hQM hab (fun t ht j hj => hiq.upper t (by rwa [min_self]) j hj)
  refine ⟨fun hz => ?_, fun hz => ?_⟩
  · unfold Precond.backward Precond.new
    simp only [h1, hsolve.2 hz]
  obtain ⟨sol, s1, s2, s3⟩ := hsolve.1 hz
  have hcall : (Precond.new la A shape mode).backward la X = .ok ⟨X.cores.set mode (sol.dematricize 1 C.shape)⟩ := by
    unfold Precond.backward Precond.new
    simp only [h1, s1]
  set S := sol.dematricize 1 C.shape with hSdef
  have hS : S.shape = [a, n, b] := by rw [hSdef, h2, demat1_shape s2]
  have hSget : ∀ x < a, ∀ y, ∀ z < b, S.get [x, y, z] = sol.get [y, x * b + z] := by
    intro x hx y z hz
    rw [hSdef, h2, demat1_get s2 y hx hz]
  -- the new tensor train
  have hset : ∀ D : ND ℝ, D.shape = C.shape → (TT.mk (X.cores.set mode D)).Valid ∧ (TT.mk (X.cores.set mode D)).shape = X.shape ∧
      (TT.mk (X.cores.set mode D)).rank = X.rank := by
    intro D hD
    obtain ⟨v1, v2, -⟩ := ttVal_set_shape hX.2 h1 hD
    refine ⟨⟨by intro h; exact hX.1 (by simpa using h), v1⟩, v2, ?_⟩
    have e := map_set_same (fun C : ND ℝ => C.dim 0) X.cores mode C D h1 (by simp [ND.dim, hD])
    simp only [TT.rank]
    rw [List.map_tail, List.map_tail, e]
  obtain ⟨y1, y2, y3⟩ := hset S (hS.trans h2.symm)
  refine ⟨_, hcall, hcall, y1, y2, y3, ?_⟩
  -- the cores of the product and of the residual
  set G : ND ℝ := ND.ofFn [a, n, b] fun i => ∑ t ∈ range n, A.get [i.getD 1 0, t] * S.get [i.getD 0 0, t, i.getD 2 0] with hG
  have hGget : ∀ x y z, x < a → y < n → z < b → G.get [x, y, z] = ∑ t ∈ range n, A.get [y, t] * S.get [x, t, z] := by
    intro x y z hx hy hz
    rw [hG, ND.ofFn_get (by exact ⟨hx, hy, hz, trivial⟩)]
    rfl
  set F : ND ℝ := ND.ofFn [a, n, b] fun i => G.get i - C.get i with hF
  have hFget : ∀ x y z, F.get [x, y, z] = G.get [x, y, z] - C.get [x, y, z] := by
    intro x y z
    by_cases hi : x < a ∧ y < n ∧ z < b
    · rw [hF, ND.ofFn_get (by exact ⟨hi.1, hi.2.1, hi.2.2, trivial⟩)]
    · rw [ND.oob3 (A := F) rfl hi, ND.oob3 (A := G) rfl hi, ND.oob3 h2 hi, sub_zero]
  have hmul : ∀ i, InR X.shape i → ttVal (X.cores.set mode G) i 0 0
      = modeMul (fun i j => A.get [i, j]) n mode (TT.mk (X.cores.set mode S)).toNumpy.get i := by
    intro i hi
    have hS1 : (X.cores.set mode S)[mode]? = some S := by
      have : mode < X.cores.length := by
        by_contra h
        rw [List.getElem?_eq_none (by omega)] at h1
        cases h1
      rw [List.getElem?_set_self this]
    have hdS := dim_of_shape3 hS
    obtain ⟨-, -, -, r4⟩ := mode_replaced y1 (C' := G) (fun i j => A.get [i, j]) (n := n) hS1 hdS.2.1 (by rw [hS]; rfl)
      (by intro x y z hx hy hz; exact hGget x y z (by omega) hy (by omega))
    have := r4 i (by rw [y2]; exact hi)
    rw [← this]
    have hv := (hset G (by rw [h2]; rfl)).1
    simp only [List.set_set]
    rw [TT.toNumpy_get hv]
    rfl
  obtain ⟨f1, f2, f3⟩ := hset F (by rw [h2]; rfl)
  have hself : X.cores.set mode C = X.cores := by
    apply List.ext_getElem?
    intro k
    by_cases hk : mode = k
    · subst hk
      rw [List.getElem?_set_self (by by_contra h; rw [List.getElem?_eq_none (by omega)] at h1; cases h1), h1]
    · rw [List.getElem?_set_ne hk]
  have hval : ∀ i, InR X.shape i → modeMul (fun i j => A.get [i, j]) n mode (TT.mk (X.cores.set mode S)).toNumpy.get i
      - X.toNumpy.get i = ttVal (X.cores.set mode F) i 0 0 := by
    intro i hi
    rw [← hmul i hi, ttVal_set_sub hX.2 h1 (D := G) (E := C) (by rw [h2]; rfl) rfl (by rw [h2]; rfl) hFget i 0 0, hself,
      TT.toNumpy_get hX]
    rfl
  have hbound := fnorm_le_coreNorms f1 (f := fun i => modeMul (fun i j => A.get [i, j]) n mode
    (TT.mk (X.cores.set mode S)).toNumpy.get i - X.toNumpy.get i) (fun i hi => hval i (by rw [← f2]; exact hi))
  rw [f2] at hbound
  refine hbound.trans ?_
  obtain ⟨q, q0, qC, qD⟩ := prod_set X.cores mode C C h1
  unfold TT.coreNorms
  rw [qC, qD, qD]
  have hα : 0 ≤ (ε + η * (1 + ε)) * frobN A := mul_nonneg (by positivity) (frobN_nonneg _)
  have := core_resid (A := A) (S := S) (C := C) (F := F) hα hε hS h2 rfl
    (fun x hx y hy z hz => by rw [hFget, hGget x y z hx hy hz]) ?_
  · nlinarith [mul_le_mul_of_nonneg_right this q0]
  · intro x hx z hz
    have hzz : x * b + z < a * b := (ND.lt_mul_iff (by omega)).2 (by omega)
    obtain ⟨R', r1, r2⟩ := s3 _ hzz
    have := column_resid hη hA hQR r1 (fun t => S.get [x, t, z]) (fun t => C.get [x, t, z]) ?_
    · exact this
    · intro i hi
      have e : ∑ t ∈ range n, R'.get [i, t] * S.get [x, t, z] = ∑ t ∈ range n, R'.get [i, t] * sol.get [t, x * b + z] :=
        sum_congr rfl fun t _ => by rw [hSget x hx t z hz]
      refine e.trans ((r2 i hi).trans ?_)
      rw [ND.matmul_get (ND.matT_shape hQs) hM]
      refine sum_congr rfl fun s _ => ?_
      rw [ND.matT_get hQs, mat1_get h2 s hx hz]

/-- The product with a matrix on one mode is at most its Frobenius norm times as large. -/
theorem modeMul_norm (G : ℕ → ℕ → ℝ) (n : ℕ) : ∀ (s : List ℕ) (mu : ℕ) (f : List ℕ → ℝ), mu < s.length → s.getD mu 0 = n →
    sumIdx s (fun i => modeMul G n mu f i ^ 2)
      ≤ (∑ i ∈ range n, ∑ t ∈ range n, G i t ^ 2) * sumIdx s fun i => f i ^ 2
  | [], _, _, h, _ => by simp at h
  | m :: s, 0, f, _, hn => by
    obtain rfl : m = n := hn
    have e : sumIdx (m :: s) (fun i => modeMul G m 0 f i ^ 2)
        = sumIdx s fun p => ∑ i ∈ range m, (∑ t ∈ range m, G i t * f (t :: p)) ^ 2 := by
      show ∑ i ∈ range m, sumIdx s _ = _
      simp only [sumIdx_eq_sum]
      rw [sum_comm]
      rfl
    have e' : sumIdx (m :: s) (fun i => f i ^ 2) = sumIdx s fun p => ∑ t ∈ range m, f (t :: p) ^ 2 := by
      show ∑ i ∈ range m, sumIdx s _ = _
      simp only [sumIdx_eq_sum]
      rw [sum_comm]
    rw [e, e', sumIdx_eq_sum, sumIdx_eq_sum, mul_sum]
    refine sum_le_sum fun p _ => ?_
    rw [sum_mul]
    exact sum_le_sum fun i _ => sum_mul_sq_le_sq_mul_sq _ _ _
  | m :: s, mu + 1, f, h, hn => by
    show ∑ x ∈ range m, sumIdx s (fun p => modeMul G n (mu + 1) f (x :: p) ^ 2) ≤ _ * ∑ x ∈ range m, sumIdx s fun p => f (x :: p) ^ 2
    rw [mul_sum]
    refine sum_le_sum fun x _ => ?_
    exact modeMul_norm G n s mu (fun p => f (x :: p)) (by simpa using h) (by simpa using hn)

/-- **C100, error.** Compared with the exact inverse, the error is at most the norm of the inverse times as large. -/
theorem C100_error {la : LinAlg2} {ε η : ℝ} (hε : 0 ≤ ε) (hη : 0 ≤ η) (hq : la.QRApprox ε) (ht : la.SolveTriApprox η) (A : ND ℝ)
    (shape : List ℕ) (mode n : ℕ) (hA : A.shape = [n, n]) (X : TT ℝ) (hX : X.Valid) (hp : X.Pos) (hm : mode < X.shape.length)
    (hn : X.shape.getD mode 0 = n) {Y : TT ℝ} (hY : (Precond.new la A shape mode).backward la X = .ok Y)
    (G : ℕ → ℕ → ℝ) (hG : IsInv G A n) :
    fnorm X.shape (fun i => Y.toNumpy.get i - modeMul G n mode X.toNumpy.get i)
      ≤ √ (∑ i ∈ range n, ∑ t ∈ range n, G i t ^ 2)
        * ((ε + η * (1 + ε)) * frobN A * Y.coreNorms + ε * X.coreNorms) := by
  obtain ⟨c1, c2⟩ := C100 hε hη hq ht A shape mode n hA X hX hp hm hn
  have hz : ∀ i < n, (la.qr A).2.get [i, i] ≠ 0 := by
    intro i hi h0
    rw [c1 ⟨i, hi, h0⟩] at hY
    cases hY
  obtain ⟨Y', e1, -, e2, e3, -, e4⟩ := c2 hz
  rw [hY] at e1
  injection e1 with e1
  subst e1
  refine le_trans ?_ (mul_le_mul_of_nonneg_left e4 (Real.sqrt_nonneg _))
  unfold fnorm
  rw [← Real.sqrt_mul (sum_nonneg fun _ _ => sum_nonneg fun _ _ => sq_nonneg _)]
  refine Real.sqrt_le_sqrt (le_trans (le_of_eq (sumIdx_congr fun i hi => ?_)) (modeMul_norm G n X.shape mode
    (fun i => modeMul (fun i j => A.get [i, j]) n mode Y.toNumpy.get i - X.toNumpy.get i) hm hn))
  congr 1
  have e5 : modeMul G n mode (fun i => modeMul (fun i j => A.get [i, j]) n mode Y.toNumpy.get i) i = Y.toNumpy.get i :=
    modeMul_modeMul (s := X.shape) hG hm hn (fun _ _ => rfl) hi
  show Y.toNumpy.get i - modeMul G n mode X.toNumpy.get i = _
  conv_lhs => rw [← e5]
  unfold modeMul
  rw [← sum_sub_distrib]
  exact sum_congr rfl fun t _ => by ring

/-- **C100, success.** If the error of the factorisation times the condition number is less than one, then the computed triangular
factor has no zero on its diagonal, so applying the preconditioner succeeds. -/
theorem C100_condition {la : LinAlg} {ε : ℝ} (hq : la.QRApprox ε) (A : ND ℝ) (n : ℕ) (hA : A.shape = [n, n])
    (G : ℕ → ℕ → ℝ) (hG : IsInv G A n) (hc : ε * frobN A * √ (∑ i ∈ range n, ∑ t ∈ range n, G i t ^ 2) < 1) :
    ∀ i < n, (la.qr A).2.get [i, i] ≠ 0 := by
  obtain ⟨-, M, P, hM, hqr, hd, -⟩ := hq A n n hA
  refine (qr_diag hqr).1.1 fun hdet => ?_
  obtain ⟨v, hv, hz⟩ := Matrix.exists_mulVec_eq_zero_iff.2 hdet
  set w : ℕ → ℝ := fun t => if h : t < n then v ⟨t, h⟩ else 0 with hw
  have hMw : ∀ i < n, ∑ t ∈ range n, M.get [i, t] * w t = 0 := by
    intro i hi
    have := congrFun hz ⟨i, hi⟩
    rw [sum_range]
    refine Eq.trans (sum_congr rfl fun t _ => ?_) this
    rw [hw]
    simp only [t.2, dif_pos]
    rfl
  have hpos : 0 < √ (∑ t ∈ range n, w t ^ 2) := by
    refine Real.sqrt_pos.2 (lt_of_le_of_ne (sum_nonneg fun _ _ => sq_nonneg _) fun h0 => hv ?_)
    have := (sum_eq_zero_iff_of_nonneg fun t _ => sq_nonneg (w t)).1 h0.symm
    funext t
    have := pow_eq_zero_iff two_ne_zero |>.1 (this t (mem_range.2 t.2))
    rw [hw] at this
    simpa [t.2] using this
  -- `w = G (A - M) w`
  set u : ℕ → ℝ := fun i => ∑ t ∈ range n, (A.get [i, t] - M.get [i, t]) * w t with hu
  have hGu : ∀ i < n, w i = ∑ s ∈ range n, G i s * u s := by
    intro i hi
    have e : ∀ s ∈ range n, G i s * u s = ∑ t ∈ range n, G i s * A.get [s, t] * w t := by
      intro s hs
      rw [hu]
      simp only [sub_mul, sum_sub_distrib]
      rw [hMw s (mem_range.1 hs), sub_zero, mul_sum]
      exact sum_congr rfl fun t _ => by ring
    rw [sum_congr rfl e, sum_comm]
    have e' : ∀ t ∈ range n, ∑ s ∈ range n, G i s * A.get [s, t] * w t = (if i = t then 1 else 0) * w t := by
      intro t ht
      rw [← hG i hi t (mem_range.1 ht), sum_mul]
    rw [sum_congr rfl e']
    simp [hi]
  have h1 := matvec_le n n G u
  have h2 := matvec_le n n (fun i t => A.get [i, t] - M.get [i, t]) w
  rw [frobD_mat' hA] at h2
  have h0 : √ (∑ i ∈ range n, (∑ t ∈ range n, G i t * u t) ^ 2) = √ (∑ t ∈ range n, w t ^ 2) := by
    congr 1
    exact sum_congr rfl fun i hi => by rw [← hGu i (mem_range.1 hi)]
  rw [h0] at h1
  have h3 : √ (∑ t ∈ range n, u t ^ 2) ≤ ε * frobN A * √ (∑ t ∈ range n, w t ^ 2) :=
    h2.trans (mul_le_mul_of_nonneg_right hd hpos.le)
  have h4 := h1.trans (mul_le_mul_of_nonneg_left h3 (Real.sqrt_nonneg _))
  nlinarith [mul_lt_mul_of_pos_right hc hpos]

/-- Exact routines meet the hypotheses with `η = 0`. -/
theorem solveTriApprox_of_exact {la : LinAlg2} (h : la.SolveTriOk) {η : ℝ} (hη : 0 ≤ η) : la.SolveTriApprox η := by
  intro R B n k hR hB hk hu
  obtain ⟨h1, h2⟩ := h R B n k hR hB hk hu
  refine ⟨fun hd => ?_, h2⟩
  obtain ⟨X, x1, x2, x3⟩ := h1 hd
  refine ⟨X, x1, x2, fun j hj => ⟨R, ?_, fun i hi => x3 i hi j hj⟩⟩
  rw [frobD_self]
  exact mul_nonneg hη (frobN_nonneg _)

/-- an inexact routine: solutions that are too small -/
noncomputable def badSolve (η : ℝ) (R B : ND ℝ) : Except PyErr (ND ℝ) := (solveTriChoice R B).map fun X => X.smul (1 / (1 + η))

theorem badSolve_approx {η : ℝ} (hη : 0 ≤ η) {la : LinAlg2} (h : la.solveTri = badSolve η) : la.SolveTriApprox η := by
  intro R B n k hR hB hk hu
  have hne : 1 + η ≠ 0 := by positivity
  obtain ⟨h1, h2⟩ := solveTriChoice_ok (la := ⟨la.toLinAlg, solveTriChoice, la.lstsq⟩) rfl R B n k hR hB hk hu
  refine ⟨fun hd => ?_, fun hz => ?_⟩
  · obtain ⟨X, x1, x2, x3⟩ := h1 hd
    have x1 : solveTriChoice R B = .ok X := x1
    refine ⟨X.smul (1 / (1 + η)), by rw [h, badSolve, x1]; rfl, x2, fun j hj => ⟨ND.ofFn [n, n] fun i => (1 + η) * R.get i, ?_, ?_⟩⟩
    · refine (Real.sqrt_le_left (mul_nonneg hη (Real.sqrt_nonneg _))).2 ?_
      rw [mul_pow]
      show _ ≤ η ^ 2 * frobN R ^ 2
      rw [frobN_mat hR]
      unfold distSq
      rw [hR]
      show ∑ i ∈ range n, ∑ j ∈ range n, _ ≤ _
      rw [mul_sum]
      refine le_of_eq (sum_congr rfl fun i hi => ?_)
      rw [mul_sum]
      refine sum_congr rfl fun j hj => ?_
      show (R.get [i, j] - (ND.ofFn [n, n] fun i => (1 + η) * R.get i).get [i, j]) ^ 2 = _
      rw [ND.ofFn_get (by exact ⟨mem_range.1 hi, mem_range.1 hj, trivial⟩)]
      ring
    · intro i hi
      rw [← x3 i hi j hj]
      refine sum_congr rfl fun t ht => ?_
      rw [ND.ofFn_get (by exact ⟨hi, mem_range.1 ht, trivial⟩), ND.smul_get]
      field_simp
  · rw [h, badSolve]
    have : solveTriChoice R B = .error .linAlgError := h2 hz
    rw [this]
    rfl

/-- A factorisation with relative error `ε`, solves with relative error `η`, and the well-conditioned matrix `[[2, 1], [0, 3]]` on
the first mode of a tensor train: the preconditioner can be applied. -/
example : let la : LinAlg2 := ⟨badQr (1 / 10 ^ 15), badSolve (1 / 10 ^ 15), fun _ _ => ([], [])⟩
    la.QRApprox (1 / 10 ^ 15) ∧ la.SolveTriApprox (1 / 10 ^ 15) ∧ precA.shape = [2, 2] ∧
    x9.Valid ∧ x9.Pos ∧ 0 < x9.shape.length ∧ x9.shape.getD 0 0 = 2 ∧
    ∃ Y, (Precond.new la precA [2] 0).backward la x9 = .ok Y := by
  intro la
  have hq : la.QRApprox (1 / 10 ^ 15) := badQr_approx (by norm_num)
  have ht : la.SolveTriApprox (1 / 10 ^ 15) := badSolve_approx (by norm_num) rfl
  refine ⟨hq, ht, rfl, x9_valid, x9_pos, by decide, by decide, ?_⟩
  have hd := C100_condition hq precA 2 rfl
    (fun i j => if i = 0 ∧ j = 0 then 1 / 2 else if i = 0 then -(1 / 6) else if j = 1 then 1 / 3 else 0) ?_ ?_
  · obtain ⟨Y, h, -⟩ := (C100 (by norm_num) (by norm_num) hq ht precA [2] 0 2 rfl x9 x9_valid x9_pos (by decide) (by decide)).2 hd
    exact ⟨Y, h⟩
  · intro i hi j hj
    interval_cases i <;> interval_cases j <;> norm_num [sum_range_succ, precA, ND.ofFn_get']
  · have h1 : frobN precA ≤ 4 := by
      rw [← frobN_mat' (show precA.shape = [2, 2] from rfl)]
      refine Real.sqrt_le_iff.2 ⟨by norm_num, ?_⟩
      norm_num [sum_range_succ, precA, ND.ofFn_get']
    have h2 : √ (∑ i ∈ range 2, ∑ j ∈ range 2,
        (if i = 0 ∧ j = 0 then 1 / 2 else if i = 0 then -(1 / 6) else if j = 1 then 1 / 3 else (0 : ℝ)) ^ 2) ≤ 1 := by
      refine Real.sqrt_le_iff.2 ⟨by norm_num, ?_⟩
      norm_num [sum_range_succ]
    have h3 := Real.sqrt_nonneg (∑ i ∈ range 2, ∑ j ∈ range 2,
        (if i = 0 ∧ j = 0 then 1 / 2 else if i = 0 then -(1 / 6) else if j = 1 then 1 / 3 else (0 : ℝ)) ^ 2)
    have h4 := frobN_nonneg precA
    nlinarith [mul_le_mul h1 h2 h3 (by norm_num)]

end TTS.Props
