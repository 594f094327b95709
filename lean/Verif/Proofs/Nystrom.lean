import Verif.Spec.Nystrom
import Verif.Proofs.OrthErr
import Verif.Proofs.SVD

/-! Streaming sketches as products of oblique projections. -/

namespace TTS

open Finset Matrix

/-! ### Moore-Penrose inverses -/

theorem IsPinv.unique {m n : ℕ} {A : Matrix (Fin m) (Fin n) ℝ} {G H : Matrix (Fin n) (Fin m) ℝ} (hG : IsPinv A G)
    (hH : IsPinv A H) : G = H := by
  have e1 : G = G * A * H := by
    have : A * G = A * H * (A * G) := by
      rw [← Matrix.mul_assoc, hH.aga]
    have h2 : A * G = A * H := by
      have h3 : (A * G)ᵀ = (A * H * (A * G))ᵀ := by rw [← this]
      rw [hG.ag, Matrix.transpose_mul, hG.ag, hH.ag, ← Matrix.mul_assoc, hG.aga] at h3
      exact h3
    calc G = G * A * G := hG.gag.symm
      _ = G * (A * G) := Matrix.mul_assoc _ _ _
      _ = G * (A * H) := by rw [h2]
      _ = G * A * H := (Matrix.mul_assoc _ _ _).symm
  have e2 : H = G * A * H := by
    have : H * A = (H * A) * (G * A) := by
      rw [Matrix.mul_assoc H, ← Matrix.mul_assoc A, hG.aga]
    have h2 : H * A = G * A := by
      have h3 : (H * A)ᵀ = ((H * A) * (G * A))ᵀ := by rw [← this]
      rw [hH.ga, Matrix.transpose_mul, hG.ga, hH.ga, Matrix.mul_assoc G, ← Matrix.mul_assoc A, hH.aga] at h3
      exact h3
    calc H = H * A * H := hH.gag.symm
      _ = G * A * H := by rw [h2]
  rw [e1, ← e2]

theorem IsPinv.transpose {m n : ℕ} {A : Matrix (Fin m) (Fin n) ℝ} {G : Matrix (Fin n) (Fin m) ℝ} (h : IsPinv A G) :
    IsPinv Aᵀ Gᵀ where
  aga := by rw [← Matrix.transpose_mul, ← Matrix.transpose_mul, ← Matrix.mul_assoc, h.aga]
  gag := by rw [← Matrix.transpose_mul, ← Matrix.transpose_mul, ← Matrix.mul_assoc, h.gag]
  ag := by rw [← Matrix.transpose_mul, h.ga]; exact h.ga
  ga := by rw [← Matrix.transpose_mul, h.ag]; exact h.ag

/-- Every real matrix has a Moore-Penrose inverse. -/
theorem exists_pinv {m n : ℕ} (A : Matrix (Fin m) (Fin n) ℝ) : ∃ G, IsPinv A G := by
  obtain ⟨U, V, S, h1, h2, h3, -, -⟩ := exists_svd (fun i j => if h : i < m ∧ j < n then A ⟨i, h.1⟩ ⟨j, h.2⟩ else 0) m n
  let U' : Matrix (Fin m) (Fin (min m n)) ℝ := fun i t => U i t
  let V' : Matrix (Fin (min m n)) (Fin n) ℝ := fun t j => V t j
  let D : Matrix (Fin (min m n)) (Fin (min m n)) ℝ := Matrix.diagonal fun t => S t
  let E : Matrix (Fin (min m n)) (Fin (min m n)) ℝ := Matrix.diagonal fun t => (S t)⁻¹
  have hU : U'ᵀ * U' = 1 := by
    ext s t
    rw [Matrix.mul_apply, Matrix.one_apply]
    refine (sum_range fun i => U i s * U i t).symm.trans ?_
    rw [h2 s (by omega) t (by omega)]
    simp [Fin.ext_iff]
  have hV : V' * V'ᵀ = 1 := by
    ext s t
    rw [Matrix.mul_apply, Matrix.one_apply]
    refine (sum_range fun i => V s i * V t i).symm.trans ?_
    rw [h3 s (by omega) t (by omega)]
    simp [Fin.ext_iff]
  have hA : A = U' * D * V' := by
    ext i j
    have := h1 i i.2 j j.2
    rw [dif_pos ⟨i.2, j.2⟩] at this
    show A ⟨i, _⟩ ⟨j, _⟩ = _
    rw [← this, Matrix.mul_apply, sum_range]
    refine sum_congr rfl fun t _ => ?_
    rw [Matrix.mul_diagonal]
  have hDE : D * E * D = D := by
    simp only [D, E, Matrix.diagonal_mul_diagonal]
    congr 1; funext t
    by_cases h : S t = 0
    · simp [h]
    · field_simp
  have hED : E * D * E = E := by
    simp only [D, E, Matrix.diagonal_mul_diagonal]
    congr 1; funext t
    by_cases h : S t = 0
    · simp [h]
    · field_simp
  have hDEt : (D * E)ᵀ = D * E := by
    simp only [D, E, Matrix.diagonal_mul_diagonal, Matrix.diagonal_transpose]
  have hEDt : (E * D)ᵀ = E * D := by
    simp only [D, E, Matrix.diagonal_mul_diagonal, Matrix.diagonal_transpose]
  have a1 : A * (V'ᵀ * E * U'ᵀ) = U' * (D * E) * U'ᵀ := by
    calc A * (V'ᵀ * E * U'ᵀ) = U' * D * (V' * V'ᵀ) * E * U'ᵀ := by rw [hA]; simp only [Matrix.mul_assoc]
      _ = U' * (D * E) * U'ᵀ := by rw [hV]; simp only [Matrix.mul_assoc, Matrix.mul_one, Matrix.one_mul]
  have a2 : (V'ᵀ * E * U'ᵀ) * A = V'ᵀ * (E * D) * V' := by
    calc (V'ᵀ * E * U'ᵀ) * A = V'ᵀ * E * (U'ᵀ * U') * D * V' := by rw [hA]; simp only [Matrix.mul_assoc]
      _ = V'ᵀ * (E * D) * V' := by rw [hU]; simp only [Matrix.mul_assoc, Matrix.mul_one, Matrix.one_mul]
  refine ⟨V'ᵀ * E * U'ᵀ, ?_, ?_, ?_, ?_⟩
  · calc A * (V'ᵀ * E * U'ᵀ) * A = U' * (D * E) * (U'ᵀ * U') * D * V' := by rw [a1]; conv_lhs => rw [hA]
                                                                            simp only [Matrix.mul_assoc]
      _ = U' * (D * E * D) * V' := by rw [hU]; simp only [Matrix.mul_assoc, Matrix.mul_one, Matrix.one_mul]
      _ = A := by rw [hDE, ← hA]
  · calc V'ᵀ * E * U'ᵀ * A * (V'ᵀ * E * U'ᵀ) = V'ᵀ * (E * D) * (V' * V'ᵀ) * E * U'ᵀ := by
          rw [a2]; simp only [Matrix.mul_assoc]
      _ = V'ᵀ * (E * D * E) * U'ᵀ := by rw [hV]; simp only [Matrix.mul_assoc, Matrix.mul_one, Matrix.one_mul]
      _ = V'ᵀ * E * U'ᵀ := by rw [hED]
  · rw [a1, Matrix.transpose_mul, Matrix.transpose_mul, hDEt, Matrix.transpose_transpose, ← Matrix.mul_assoc]
  · rw [a2, Matrix.transpose_mul, Matrix.transpose_mul, hEDt, Matrix.transpose_transpose, ← Matrix.mul_assoc]

/-- A routine that multiplies with the Moore-Penrose inverse. -/
noncomputable def mpChoice (A B : ND ℝ) : ND ℝ :=
  ND.ofFn [A.dim 1, B.dim 1] fun tj => ∑ s : Fin (A.dim 0),
    if h : tj.getD 0 0 < A.dim 1 then (exists_pinv (A.asMatrix (A.dim 0) (A.dim 1))).choose ⟨tj.getD 0 0, h⟩ s
      * B.get [s, tj.getD 1 0] else 0

theorem mpChoice_contract {env : Env ℝ} (h : env.lstsq = mpChoice) : MPContract env := by
  intro A m n hA
  have hA0 : A.dim 0 = m := by simp [ND.dim, hA]
  have hA1 : A.dim 1 = n := by simp [ND.dim, hA]
  subst hA0 hA1
  refine ⟨_, (exists_pinv (A.asMatrix (A.dim 0) (A.dim 1))).choose_spec, fun B k hB => ?_⟩
  have hB1 : B.dim 1 = k := by simp [ND.dim, hB]
  rw [h]
  refine ⟨by simp [mpChoice, hB1], ?_⟩
  ext t j
  show (mpChoice A B).get [t, j] = _
  rw [mpChoice, ND.ofFn_get (by rw [hB1]; exact ⟨t.2, j.2, trivial⟩), Matrix.mul_apply]
  refine sum_congr rfl fun s _ => ?_
  show (if h : (t : ℕ) < A.dim 1 then _ else _) = _
  rw [dif_pos t.2]
  rfl

/-- The matrix is a generalised inverse. -/
theorem MPContract.pinv {env : Env ℝ} (h : MPContract env) : PinvContract env := by
  intro A m n hA
  obtain ⟨G, hG, hB⟩ := h A m n hA
  refine ⟨fun t s => if h : t < n ∧ s < m then G ⟨t, h.1⟩ ⟨s, h.2⟩ else 0, fun i hi j hj => ?_, fun B k hk => ?_⟩
  · have := congrFun (congrFun hG.aga ⟨i, hi⟩) ⟨j, hj⟩
    rw [Matrix.mul_apply] at this
    simp only [Matrix.mul_apply, sum_mul] at this
    change _ = A.get [i, j] at this
    rw [← this, sum_comm (s := range n), sum_range]
    refine sum_congr rfl fun s _ => ?_
    rw [sum_range]
    exact sum_congr rfl fun t _ => by beta_reduce; rw [dif_pos ⟨t.2, s.2⟩]; rfl
  · obtain ⟨e1, e2⟩ := hB B k hk
    refine ⟨e1, fun t ht j hj => ?_⟩
    have := congrFun (congrFun e2 ⟨t, ht⟩) ⟨j, hj⟩
    change (env.lstsq A B).get [t, j] = _ at this
    rw [this, Matrix.mul_apply, sum_range]
    exact sum_congr rfl fun s _ => by beta_reduce; rw [dif_pos ⟨ht, s.2⟩]; rfl

/-! ### one core -/

/-- The core of direction `right`. -/
theorem rightCore_pinv {env : Env ℝ} (hE : MPContract env) {P O : ND ℝ} {a n r l : ℕ} (hP : P.shape = [a, n, r])
    (hO : O.shape = [l, r]) {G : ℕ → ℕ → ℝ} (hG : IsPinv (O.asMatrix l r) (matOf r l G)) :
    ∃ C, (rightMulPinv env (P.reshape [a * n, r]) O).reshape? [a, n, l] = .ok C ∧ C.shape = [a, n, l] ∧
      ∀ i < a, ∀ j < n, ∀ c < l, C.get [i, j, c] = ∑ b ∈ range r, P.get [i, j, b] * G b c := by
  have hM : (P.reshape [a * n, r]).shape = [a * n, r] := rfl
  obtain ⟨H, hH, hB⟩ := hE O.matT r l (ND.matT_shape hO)
  have hHG : H = (matOf r l G)ᵀ := by
    have e : O.matT.asMatrix r l = (O.asMatrix l r)ᵀ := by
      ext i j
      exact ND.matT_get hO i j
    rw [e] at hH
    exact hH.unique hG.transpose
  obtain ⟨h1, h2⟩ := hB (P.reshape [a * n, r]).matT (a * n) (ND.matT_shape hM)
  have h3 := ND.matT_shape h1
  refine ⟨_, reshape?_ok h3 (by simp [mul_assoc]), rfl, ?_⟩
  intro i hi j hj c hc
  have hij : i * n + j < a * n := (ND.lt_mul_iff hj).2 hi
  rw [rightMulPinv, ND.reshape_split12 h3 i j c hj, ND.matT_get h1]
  have := congrFun (congrFun h2 ⟨c, hc⟩) ⟨i * n + j, hij⟩
  change (env.lstsq O.matT (P.reshape [a * n, r]).matT).get [c, i * n + j] = _ at this
  rw [this, hHG, Matrix.mul_apply, sum_range]
  refine sum_congr rfl fun b _ => ?_
  show G b c * (P.reshape [a * n, r]).matT.get [(b : ℕ), i * n + j] = _
  rw [ND.matT_get hM, ND.reshape_merge12 hP i j b hj, mul_comm]

/-- The core of direction `left`. -/
theorem leftCore_pinv {env : Env ℝ} (hE : MPContract env) {P O : ND ℝ} {a n r l : ℕ} (hP : P.shape = [l, n, a])
    (hO : O.shape = [l, r]) {G : ℕ → ℕ → ℝ} (hG : IsPinv (O.asMatrix l r) (matOf r l G)) :
    ∃ C, (leftMulPinv env O (P.reshape [l, n * a])).reshape? [r, n, a] = .ok C ∧ C.shape = [r, n, a] ∧
      ∀ b < r, ∀ j < n, ∀ c < a, C.get [b, j, c] = ∑ i ∈ range l, G b i * P.get [i, j, c] := by
  have hM : (P.reshape [l, n * a]).shape = [l, n * a] := rfl
  obtain ⟨H, hH, hB⟩ := hE O l r hO
  have hHG : H = matOf r l G := hH.unique hG
  obtain ⟨h1, h2⟩ := hB (P.reshape [l, n * a]) (n * a) hM
  refine ⟨_, reshape?_ok h1 (by simp), rfl, ?_⟩
  intro b hb j hj c hc
  have hij : j * a + c < n * a := (ND.lt_mul_iff hc).2 hj
  rw [leftMulPinv, ND.reshape_split23 h1 b j c hc]
  have := congrFun (congrFun h2 ⟨b, hb⟩) ⟨j * a + c, hij⟩
  change (env.lstsq O (P.reshape [l, n * a])).get [b, j * a + c] = _ at this
  rw [this, hHG, Matrix.mul_apply, sum_range]
  refine sum_congr rfl fun i _ => ?_
  show G b i * (P.reshape [l, n * a]).get [(i : ℕ), j * a + c] = _
  rw [ND.reshape_merge23 hP i j c hc]

/-! ### all cores -/

theorem assembleRight_gen {env : Env ℝ} {s : Container ℝ} {sh lr rr : List ℕ} {Q : ℕ → ND ℝ → Prop}
    (hd : 1 ≤ sh.length) (hl : lr.length = sh.length - 1) (hr : rr.length = sh.length - 1) (hs : s.HasShape sh lr rr)
    (hcore : ∀ k < sh.length - 1, ∀ P O : ND ℝ, P = s.psi.getD k (ND.zeros []) → O = s.omega.getD k (ND.zeros []) →
      P.shape = [(1 :: lr).getD k 0, sh.getD k 0, rr.getD k 0] → O.shape = [lr.getD k 0, rr.getD k 0] →
      ∃ C, (rightMulPinv env (P.reshape [(1 :: lr).getD k 0 * sh.getD k 0, rr.getD k 0]) O).reshape?
          [(1 :: lr).getD k 0, sh.getD k 0, lr.getD k 0] = .ok C ∧
        C.shape = [(1 :: lr).getD k 0, sh.getD k 0, lr.getD k 0] ∧ Q k C) :
    ∃ cs, assembleRight env s = .ok cs ∧ cs.length = sh.length ∧
      Cores cs (fun k => (1 :: lr ++ [1]).getD k 0) (fun k => sh.getD k 0) ∧
      cs.getD (sh.length - 1) (ND.zeros []) = s.psi.getD (sh.length - 1) (ND.zeros []) ∧
      ∀ mu < sh.length - 1, Q mu (cs.getD mu (ND.zeros [])) := by
  have hzl : (s.psi.dropLast.zip s.omega).length = sh.length - 1 := by
    simp [hs.psiLen, hs.omegaLen]
  have key : ∀ k < sh.length - 1,
      (s.psi.dropLast.zip s.omega).getD k (ND.zeros [], ND.zeros [])
        = (s.psi.getD k (ND.zeros []), s.omega.getD k (ND.zeros [])) := by
    intro k hk
    rw [getD_zip (by simpa [hs.psiLen] using hk) (by rw [hs.omegaLen]; exact hk), getD_dropLast (by rw [hs.psiLen]; exact hk)]
  have hpsi : ∀ k < sh.length - 1, (s.psi.getD k (ND.zeros [])).shape
      = [(1 :: lr).getD k 0, sh.getD k 0, rr.getD k 0] := by
    intro k hk
    rw [hs.psi k (by omega), List.getD_append _ _ _ _ (by omega)]
  obtain ⟨cs, h1, h2, h3⟩ := mapM_exists (f := fun po : ND ℝ × ND ℝ =>
      (rightMulPinv env (po.1.reshape [po.1.dim 0 * po.1.dim 1, po.1.dim 2]) po.2).reshape?
        [po.1.dim 0, po.1.dim 1, po.2.dim 0])
    (Q := fun k C => C.shape = [(1 :: lr).getD k 0, sh.getD k 0, lr.getD k 0] ∧ Q k C)
    (ND.zeros [], ND.zeros []) (ND.zeros []) (l := s.psi.dropLast.zip s.omega) (by
      intro k hk
      rw [hzl] at hk
      rw [key k hk]
      have hP := hpsi k hk
      have hO := hs.omega k hk
      rw [(dim_of_shape3 hP).1, (dim_of_shape3 hP).2.1, (dim_of_shape3 hP).2.2]
      have hd0 : (s.omega.getD k (ND.zeros [])).dim 0 = lr.getD k 0 := by
        generalize s.omega.getD k (ND.zeros []) = O at hO
        simp [ND.dim, hO]
      rw [hd0]
      exact hcore k hk _ _ rfl rfl hP hO)
  rw [hzl] at h2 h3
  refine ⟨cs ++ [s.psi.getLastD (ND.zeros [])], ?_, by simp [h2]; omega, ?_, ?_, ?_⟩
  · unfold assembleRight
    rw [h1]
  · intro k hk
    simp only [List.length_append, h2, List.length_cons, List.length_nil] at hk
    beta_reduce
    rw [aug_left (by omega)]
    by_cases hk' : k < sh.length - 1
    · rw [List.getD_append _ _ _ _ (by omega), (h3 k hk').1, aug_right (by omega)]
    · obtain rfl : k = sh.length - 1 := by omega
      rw [List.getD_append_right _ _ _ _ (by omega), h2, Nat.sub_self, List.getD_cons_zero, getLastD_eq, hs.psiLen,
        hs.psi _ (by omega), aug_right']
      congr 3
      rw [List.getD_append_right _ _ _ _ (by omega), List.getD_append_right _ _ _ _ (by omega), hr, hl]
  · rw [List.getD_append_right _ _ _ _ (by omega), h2, Nat.sub_self, List.getD_cons_zero, getLastD_eq, hs.psiLen]
  · intro mu hmu
    rw [List.getD_append _ _ _ _ (by omega)]
    exact (h3 mu hmu).2

theorem assembleLeft_gen {env : Env ℝ} {s : Container ℝ} {sh lr rr : List ℕ} {Q : ℕ → ND ℝ → Prop}
    (hd : 1 ≤ sh.length) (hr : rr.length = sh.length - 1) (hs : s.HasShape sh lr rr)
    (hcore : ∀ k < sh.length - 1, ∀ P O : ND ℝ, P = s.psi.getD (k + 1) (ND.zeros []) → O = s.omega.getD k (ND.zeros []) →
      P.shape = [lr.getD k 0, sh.getD (k + 1) 0, (rr ++ [1]).getD (k + 1) 0] → O.shape = [lr.getD k 0, rr.getD k 0] →
      ∃ C, (leftMulPinv env O (P.reshape [lr.getD k 0, sh.getD (k + 1) 0 * (rr ++ [1]).getD (k + 1) 0])).reshape?
          [rr.getD k 0, sh.getD (k + 1) 0, (rr ++ [1]).getD (k + 1) 0] = .ok C ∧
        C.shape = [rr.getD k 0, sh.getD (k + 1) 0, (rr ++ [1]).getD (k + 1) 0] ∧ Q k C) :
    ∃ cs, assembleLeft env s = .ok cs ∧ cs.length = sh.length ∧
      Cores cs (fun k => (1 :: rr ++ [1]).getD k 0) (fun k => sh.getD k 0) ∧
      cs.getD 0 (ND.zeros []) = s.psi.getD 0 (ND.zeros []) ∧
      ∀ mu < sh.length - 1, Q mu (cs.getD (mu + 1) (ND.zeros [])) := by
  have hzl : (s.psi.tail.zip s.omega).length = sh.length - 1 := by
    simp [hs.psiLen, hs.omegaLen]
  have key : ∀ k < sh.length - 1,
      (s.psi.tail.zip s.omega).getD k (ND.zeros [], ND.zeros [])
        = (s.psi.getD (k + 1) (ND.zeros []), s.omega.getD k (ND.zeros [])) := by
    intro k hk
    rw [getD_zip (by simpa [hs.psiLen] using hk) (by rw [hs.omegaLen]; exact hk), getD_tail]
  have hpsi : ∀ k < sh.length - 1, (s.psi.getD (k + 1) (ND.zeros [])).shape
      = [lr.getD k 0, sh.getD (k + 1) 0, (rr ++ [1]).getD (k + 1) 0] := by
    intro k hk
    rw [hs.psi (k + 1) (by omega), List.getD_cons_succ]
  obtain ⟨cs, h1, h2, h3⟩ := mapM_exists (f := fun po : ND ℝ × ND ℝ =>
      (leftMulPinv env po.2 (po.1.reshape [po.1.dim 0, po.1.dim 1 * po.1.dim 2])).reshape?
        [po.2.dim 1, po.1.dim 1, po.1.dim 2])
    (Q := fun k C => C.shape = [rr.getD k 0, sh.getD (k + 1) 0, (rr ++ [1]).getD (k + 1) 0] ∧ Q k C)
    (ND.zeros [], ND.zeros []) (ND.zeros []) (l := s.psi.tail.zip s.omega) (by
      intro k hk
      rw [hzl] at hk
      rw [key k hk]
      have hP := hpsi k hk
      have hO := hs.omega k hk
      rw [(dim_of_shape3 hP).1, (dim_of_shape3 hP).2.1, (dim_of_shape3 hP).2.2]
      have hd0 : (s.omega.getD k (ND.zeros [])).dim 1 = rr.getD k 0 := by
        generalize s.omega.getD k (ND.zeros []) = O at hO
        simp [ND.dim, hO]
      rw [hd0]
      exact hcore k hk _ _ rfl rfl hP hO)
  rw [hzl] at h2 h3
  have hhead : s.psi.headD (ND.zeros []) = s.psi.getD 0 (ND.zeros []) := by
    cases s.psi <;> rfl
  refine ⟨s.psi.headD (ND.zeros []) :: cs, ?_, by simp [h2]; omega, ?_, by rw [List.getD_cons_zero, hhead], ?_⟩
  · unfold assembleLeft
    rw [h1]
  · intro k hk
    simp only [List.length_cons, h2] at hk
    beta_reduce
    cases k with
    | zero =>
      rw [List.getD_cons_zero, hhead, hs.psi 0 (by omega), aug_right']
      rfl
    | succ k => rw [List.getD_cons_succ, (h3 k (by omega)).1, aug_right (by omega), aug_right']
  · intro mu hmu
    rw [List.getD_cons_succ]
    exact (h3 mu hmu).2

end TTS
