import Verif.Spec.ApproxPrecond
import Verif.Proofs.ApproxStream
import Verif.Props.Precond

/-!
# The preconditioner with inexact linear algebra
-/

namespace TTS.Props

open Finset Spec

/-! ### One column -/

theorem qr_square {M Q R : ND ℝ} {n : ℕ} (h : IsQR M Q R n n) :
    ∀ i < n, ∀ j < n, ∑ t ∈ range n, Q.get [i, t] * Q.get [j, t] = if i = j then 1 else 0 := by
  have hmin : min n n = n := min_self n
  obtain ⟨h1, h2, h3, h4, h5⟩ := h
  rw [hmin] at h1 h2 h3 h4 h5
  have hQ : (Q.asMatrix n n).transpose * Q.asMatrix n n = 1 := by
    ext i j
    rw [Matrix.mul_apply, Matrix.one_apply]
    have := h4 i i.2 j j.2
    rw [Finset.sum_range] at this
    simp only [Fin.ext_iff]
    rw [← this]
    rfl
  have hQ' := mul_eq_one_comm.1 hQ
  intro i hi j hj
  have := congrFun (congrFun hQ' ⟨i, hi⟩) ⟨j, hj⟩
  rw [Matrix.mul_apply, Matrix.one_apply] at this
  simp only [Fin.mk.injEq] at this
  rw [← this, Finset.sum_range]
  rfl

/-- multiplication by an orthogonal matrix -/
theorem qr_resid {M Q R : ND ℝ} {n : ℕ} (h : IsQR M Q R n n) (s c : ℕ → ℝ) :
    ∑ i ∈ range n, (∑ t ∈ range n, M.get [i, t] * s t - c i) ^ 2
      = ∑ i ∈ range n, (∑ t ∈ range n, R.get [i, t] * s t - ∑ u ∈ range n, Q.get [u, i] * c u) ^ 2 := by
  have hs := qr_square h
  obtain ⟨h1, h2, h3, h4, h5⟩ := h
  rw [min_self] at h1 h2 h3 h4 h5
  have ho : Orthn (range n) n fun t i => Q.get [i, t] := fun s hs t ht => h4 s hs t ht
  rw [← ho.parseval fun i => ∑ t ∈ range n, R.get [i, t] * s t - ∑ u ∈ range n, Q.get [u, i] * c u]
  refine sum_congr rfl fun i hi => ?_
  have hi := mem_range.1 hi
  congr 1
  have e1 : ∑ t ∈ range n, M.get [i, t] * s t = ∑ q ∈ range n, Q.get [i, q] * ∑ t ∈ range n, R.get [q, t] * s t := by
    simp only [mul_sum]
    rw [sum_comm]
    refine sum_congr rfl fun t ht => ?_
    rw [← h3 i hi t (mem_range.1 ht), sum_mul]
    exact sum_congr rfl fun _ _ => by ring
  have e2 : c i = ∑ q ∈ range n, Q.get [i, q] * ∑ u ∈ range n, Q.get [u, q] * c u := by
    simp only [mul_sum]
    rw [sum_comm]
    simp only [← mul_assoc, ← sum_mul]
    rw [sum_eq_single i]
    · rw [hs i hi i hi, if_pos rfl, one_mul]
    · intro u hu hne
      rw [hs i hi u (mem_range.1 hu), if_neg (Ne.symm hne), zero_mul]
    · intro h; exact absurd (mem_range.2 hi) h
  rw [e1, e2, ← sum_sub_distrib]
  exact sum_congr rfl fun q _ => by ring

theorem frobD_mat' {M M' : ND ℝ} {m n : ℕ} (h : M.shape = [m, n]) :
    √ (∑ i ∈ range m, ∑ j ∈ range n, (M.get [i, j] - M'.get [i, j]) ^ 2) = frobD M M' := by
  rw [← frobD_mat h, Real.sqrt_sq (frobD_nonneg _ _)]

theorem frobN_mat' {M : ND ℝ} {m n : ℕ} (h : M.shape = [m, n]) :
    √ (∑ i ∈ range m, ∑ j ∈ range n, M.get [i, j] ^ 2) = frobN M := by
  rw [← frobN_mat h, Real.sqrt_sq (frobN_nonneg _)]

/-- residual of one column -/
theorem column_resid {ε η : ℝ} {A Q R R' : ND ℝ} {n : ℕ} (hη : 0 ≤ η) (hA : A.shape = [n, n])
    (hq : IsApproxQR ε A Q R n n) (hR : frobD R R' ≤ η * frobN R) (s c : ℕ → ℝ)
    (hs : ∀ i < n, ∑ t ∈ range n, R'.get [i, t] * s t = ∑ u ∈ range n, Q.get [u, i] * c u) :
    √ (∑ i ∈ range n, (∑ t ∈ range n, A.get [i, t] * s t - c i) ^ 2)
      ≤ (ε + η * (1 + ε)) * frobN A * √ (∑ t ∈ range n, s t ^ 2) + ε * √ (∑ t ∈ range n, c t ^ 2) := by
  obtain ⟨hQs, M, P, hM, hqr, hd, hp⟩ := hq
  rw [min_self] at hQs
  have hRs : R.shape = [n, n] := by rw [hqr.shapeR, min_self]
  have hPs : P.shape = [n, n] := by rw [hqr.shapeQ, min_self]
  have q1 := resid_change n n (fun i t => A.get [i, t]) (fun i t => M.get [i, t]) s c c
  have z1 : √ (∑ i ∈ range n, (c i - c i) ^ 2) = 0 := by simp
  rw [z1, add_zero, frobD_mat' hA, qr_resid hqr] at q1
  have q2 := resid_change n n (fun i t => R.get [i, t]) (fun i t => R'.get [i, t]) s
    (fun i => ∑ u ∈ range n, P.get [u, i] * c u) (fun i => ∑ u ∈ range n, Q.get [u, i] * c u)
  have z2 : √ (∑ i ∈ range n, (∑ t ∈ range n, R'.get [i, t] * s t - ∑ u ∈ range n, Q.get [u, i] * c u) ^ 2) = 0 := by
    rw [sum_eq_zero fun i hi => by rw [hs i (mem_range.1 hi), sub_self, zero_pow two_ne_zero], Real.sqrt_zero]
  rw [z2, zero_add, frobD_mat' hRs] at q2
  have q3 : √ (∑ i ∈ range n, (∑ u ∈ range n, P.get [u, i] * c u - ∑ u ∈ range n, Q.get [u, i] * c u) ^ 2)
      ≤ ε * √ (∑ t ∈ range n, c t ^ 2) := by
    have := matvec_le n n (fun i u => P.get [u, i] - Q.get [u, i]) c
    have e : √ (∑ i ∈ range n, ∑ t ∈ range n, (P.get [t, i] - Q.get [t, i]) ^ 2) = frobD Q P := by
      rw [sum_comm, ← frobD_mat' hQs]
      congr 1
      exact sum_congr rfl fun _ _ => sum_congr rfl fun _ _ => by ring
    rw [e] at this
    simp only [sub_mul, sum_sub_distrib] at this
    exact this.trans (mul_le_mul_of_nonneg_right hp (Real.sqrt_nonneg _))
  have hRn : frobN R ≤ (1 + ε) * frobN A := by
    rw [hqr.frobN_R hM]
    have := frobN_le (A := A) (B := M) (by rw [hM, hA])
    linarith
  have hsn := Real.sqrt_nonneg (∑ t ∈ range n, s t ^ 2)
  have m1 : frobD A M * √ (∑ t ∈ range n, s t ^ 2) ≤ ε * frobN A * √ (∑ t ∈ range n, s t ^ 2) :=
    mul_le_mul_of_nonneg_right hd hsn
  have m2 : frobD R R' * √ (∑ t ∈ range n, s t ^ 2) ≤ η * ((1 + ε) * frobN A) * √ (∑ t ∈ range n, s t ^ 2) :=
    mul_le_mul_of_nonneg_right (hR.trans (mul_le_mul_of_nonneg_left hRn hη)) hsn
  nlinarith [q1, q2, q3, m1, m2]

/-! ### One core -/

/-- tensor trains are linear in each core -/
theorem ttVal_set_sub : ∀ {Cs : List (ND ℝ)} {r s mu : ℕ} {C D E F : ND ℝ}, TTChain r Cs s → Cs[mu]? = some C →
    D.shape = C.shape → E.shape = C.shape → F.shape = C.shape → (∀ x y z, F.get [x, y, z] = D.get [x, y, z] - E.get [x, y, z]) →
    ∀ (i : List ℕ) (a b : ℕ), ttVal (Cs.set mu F) i a b = ttVal (Cs.set mu D) i a b - ttVal (Cs.set mu E) i a b
  | [], _, _, _, _, _, _, _, _, h, _, _, _, _ => by simp at h
  | D0 :: Cs, r, s, 0, C, D, E, F, ⟨n', u, hD, hCs⟩, h, hd, he, hf, hg => by
    have hDC : D0 = C := by simpa using h
    subst hDC
    intro i a b
    match i with
    | [] => simp [ttVal]
    | x :: i =>
      simp only [List.set_cons_zero]
      rw [ttVal_cons (hf.trans hD), ttVal_cons (hd.trans hD), ttVal_cons (he.trans hD), ← sum_sub_distrib]
      exact sum_congr rfl fun t _ => by rw [hg]; ring
  | D0 :: Cs, r, s, mu + 1, C, D, E, F, ⟨n', u, hD, hCs⟩, h, hd, he, hf, hg => by
    intro i a b
    match i with
    | [] => simp [ttVal]
    | x :: i =>
      simp only [List.set_cons_succ]
      rw [ttVal_cons hD, ttVal_cons hD, ttVal_cons hD, ← sum_sub_distrib]
      refine sum_congr rfl fun t _ => ?_
      rw [ttVal_set_sub (C := C) (D := D) (E := E) hCs (by simpa using h) hd he hf hg]
      ring

theorem ttVal_set_shape : ∀ {Cs : List (ND ℝ)} {r s mu : ℕ} {C D : ND ℝ}, TTChain r Cs s → Cs[mu]? = some C →
    D.shape = C.shape → TTChain r (Cs.set mu D) s ∧ coreShape (Cs.set mu D) = coreShape Cs ∧ True
  | [], _, _, _, _, _, _, h, _ => by simp at h
  | D0 :: Cs, r, s, 0, C, D, ⟨n', u, hD, hCs⟩, h, hd => by
    have hDC : D0 = C := by simpa using h
    subst hDC
    exact ⟨⟨n', u, hd.trans hD, hCs⟩, by simp [coreShape, ND.dim, hd], trivial⟩
  | D0 :: Cs, r, s, mu + 1, C, D, ⟨n', u, hD, hCs⟩, h, hd => by
    obtain ⟨h1, h2, -⟩ := ttVal_set_shape (C := C) (D := D) hCs (by simpa using h) hd
    refine ⟨⟨n', u, hD, h1⟩, ?_, trivial⟩
    show D0.dim 1 :: coreShape (Cs.set mu D) = D0.dim 1 :: coreShape Cs
    rw [h2]

theorem prod_set : ∀ (Cs : List (ND ℝ)) (mu : ℕ) (C D : ND ℝ), Cs[mu]? = some C →
    ∃ q, 0 ≤ q ∧ (Cs.map frobN).prod = frobN C * q ∧ ∀ D, ((Cs.set mu D).map frobN).prod = frobN D * q
  | [], _, _, _, h => by simp at h
  | E :: Cs, 0, C, D, h => by
    have : E = C := by simpa using h
    subst this
    refine ⟨(Cs.map frobN).prod, ?_, by simp, fun D => by simp⟩
    exact List.prod_nonneg fun a ha => by obtain ⟨E, -, rfl⟩ := List.mem_map.1 ha; exact frobN_nonneg E
  | E :: Cs, mu + 1, C, D, h => by
    obtain ⟨q, q1, q2, q3⟩ := prod_set Cs mu C D (by simpa using h)
    refine ⟨frobN E * q, mul_nonneg (frobN_nonneg _) q1, ?_, fun D => ?_⟩
    · rw [List.map_cons, List.prod_cons, q2]; ring
    · rw [List.set_cons_succ, List.map_cons, List.prod_cons, q3]; ring

/-- residual of a core, from the residuals of its columns -/
theorem core_resid {A S C F : ND ℝ} {a n b : ℕ} {α ε : ℝ} (hα : 0 ≤ α) (hε : 0 ≤ ε) (hS : S.shape = [a, n, b])
    (hC : C.shape = [a, n, b]) (hF : F.shape = [a, n, b])
    (hf : ∀ x < a, ∀ y < n, ∀ z < b, F.get [x, y, z] = ∑ t ∈ range n, A.get [y, t] * S.get [x, t, z] - C.get [x, y, z])
    (hcol : ∀ x < a, ∀ z < b, √ (∑ y ∈ range n, (∑ t ∈ range n, A.get [y, t] * S.get [x, t, z] - C.get [x, y, z]) ^ 2)
      ≤ α * √ (∑ t ∈ range n, S.get [x, t, z] ^ 2) + ε * √ (∑ t ∈ range n, C.get [x, t, z] ^ 2)) :
    frobN F ≤ α * frobN S + ε * frobN C := by
  have n3 : ∀ {X : ND ℝ}, X.shape = [a, n, b] →
      frobN X = √ (∑ p ∈ range a ×ˢ range b, √ (∑ y ∈ range n, X.get [p.1, y, p.2] ^ 2) ^ 2) := by
    intro X hX
    rw [frobN, normSq, hX, sum_product]
    congr 1
    show ∑ x ∈ range a, ∑ y ∈ range n, ∑ z ∈ range b, X.get [x, y, z] ^ 2 = _
    refine sum_congr rfl fun x _ => ?_
    rw [sum_comm]
    exact sum_congr rfl fun z _ => (Real.sq_sqrt (sum_nonneg fun _ _ => sq_nonneg _)).symm
  rw [n3 hF, n3 hS, n3 hC]
  have m := sqrt_sum_add_le (range a ×ˢ range b) (fun p => α * √ (∑ y ∈ range n, S.get [p.1, y, p.2] ^ 2))
    (fun p => ε * √ (∑ y ∈ range n, C.get [p.1, y, p.2] ^ 2))
  simp only [mul_pow] at m
  rw [← mul_sum, ← mul_sum, Real.sqrt_mul (sq_nonneg _), Real.sqrt_mul (sq_nonneg _), Real.sqrt_sq hα, Real.sqrt_sq hε] at m
  refine le_trans (Real.sqrt_le_sqrt (sum_le_sum fun p hp => ?_)) m
  obtain ⟨h1, h2⟩ := mem_product.1 hp
  refine pow_le_pow_left₀ (Real.sqrt_nonneg _) ?_ 2
  refine le_trans (le_of_eq ?_) (hcol p.1 (mem_range.1 h1) p.2 (mem_range.1 h2))
  congr 1
  exact sum_congr rfl fun y hy => by rw [hf _ (mem_range.1 h1) _ (mem_range.1 hy) _ (mem_range.1 h2)]

/-- the norm of a tensor train is at most the product of the norms of its cores -/
theorem fnorm_le_coreNorms {X : TT ℝ} (hX : X.Valid) {f : List ℕ → ℝ} (hf : ∀ i, InR X.shape i → f i = ttVal X.cores i 0 0) :
    fnorm X.shape f ≤ X.coreNorms := by
  have := valL_norm hX.2
  refine le_trans (le_of_eq ?_) this
  rw [fnorm, dL, distL, sum_range_one]
  congr 1
  refine sumIdx_congr fun i hi => ?_
  rw [hf i hi, valL, zL, sub_zero]

end TTS.Props
