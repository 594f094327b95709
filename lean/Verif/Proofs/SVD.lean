import Verif.Spec.Numerics
import Verif.Proofs.Contracts
import Mathlib.Analysis.InnerProductSpace.SingularValues

/-! Singular value decompositions exist, so the contract of `np.linalg.svd` can be met. -/

namespace TTS

open Finset

theorem exists_svd (M : ℕ → ℕ → ℝ) (m n : ℕ) : ∃ (U V : ℕ → ℕ → ℝ) (S : ℕ → ℝ),
    (∀ i < m, ∀ j < n, ∑ t ∈ range (min m n), U i t * S t * V t j = M i j) ∧
    (∀ s < m, ∀ t < m, ∑ i ∈ range m, U i s * U i t = if s = t then 1 else 0) ∧
    (∀ s < n, ∀ t < n, ∑ j ∈ range n, V s j * V t j = if s = t then 1 else 0) ∧
    (∀ t, 0 ≤ S t) ∧ (∀ s t, s ≤ t → S t ≤ S s) := by
  classical
  let E := EuclideanSpace ℝ (Fin n)
  let F := EuclideanSpace ℝ (Fin m)
  have hn : Module.finrank ℝ E = n := by simp [E]
  have hm : Module.finrank ℝ F = m := by simp [F]
  let T : E →ₗ[ℝ] F := Matrix.toEuclideanLin (Matrix.of fun (i : Fin m) (j : Fin n) => M i j)
  have hT : ∀ (x : E) (i : Fin m), T x i = ∑ j : Fin n, M i j * x j := by
    intro x i
    show (Matrix.toEuclideanLin _ x).ofLp i = _
    rw [Matrix.toLpLin_apply]
    rfl
  obtain ⟨v, hv⟩ : ∃ v : OrthonormalBasis (Fin n) ℝ E,
      ∀ i : Fin n, LinearMap.adjoint T (T (v i)) = (T.singularValues i ^ 2) • v i := by
    refine ⟨T.isSymmetric_adjoint_comp_self.eigenvectorBasis hn, fun i => ?_⟩
    have := T.isSymmetric_adjoint_comp_self.apply_eigenvectorBasis hn i
    rw [← T.sq_singularValues_fin hn i] at this
    exact this
  have hinner : ∀ i j : Fin n, inner ℝ (T (v i)) (T (v j)) = if i = j then T.singularValues i ^ 2 else 0 := by
    intro i j
    rw [← LinearMap.adjoint_inner_left, hv, inner_smul_left, (orthonormal_iff_ite.1 v.orthonormal) i j]
    split_ifs <;> simp
  obtain ⟨k, hkk⟩ : ∃ k, k = Module.finrank ℝ T.range := ⟨_, rfl⟩
  have hkm : k ≤ m := hkk.trans_le ((Submodule.finrank_le _).trans hm.le)
  have hkn : k ≤ n := hkk.trans_le ((LinearMap.finrank_range_le T).trans hn.le)
  have hpos : ∀ i < k, 0 < T.singularValues i := fun i hi =>
    T.singularValues_pos_iff_lt_finrank_range.2 (by rw [← hkk]; exact hi)
  have hzero : ∀ i, k ≤ i → T.singularValues i = 0 := fun i hi =>
    T.singularValues_eq_zero_iff_le_finrank_range.2 (by rw [← hkk]; exact hi)
  let w : Fin m → F := fun i => if h : (i : ℕ) < k then (T.singularValues i)⁻¹ • T (v ⟨i, by omega⟩) else 0
  have hw : Orthonormal ℝ (Set.domRestrict {i : Fin m | (i : ℕ) < k} w) := by
    rw [orthonormal_iff_ite]
    rintro ⟨i, hi⟩ ⟨j, hj⟩
    have hi' : (i : ℕ) < k := hi
    have hj' : (j : ℕ) < k := hj
    simp only [Set.domRestrict_apply, w, dif_pos hi', dif_pos hj', inner_smul_left, inner_smul_right, hinner]
    have p1 := (hpos i hi').ne'
    by_cases hij : i = j
    · subst hij; simp; field_simp
    · have : ¬ (⟨(i : ℕ), by omega⟩ : Fin n) = ⟨j, by omega⟩ := by
        intro h; apply hij; simpa [Fin.ext_iff] using h
      simp [this, hij]
  obtain ⟨u, hu⟩ := hw.exists_orthonormalBasis_extension_of_card_eq (by simp [F])
  have hTv : ∀ (t : ℕ) (ht : t < n) (htm : t < m), T (v ⟨t, ht⟩) = T.singularValues t • u ⟨t, htm⟩ := by
    intro t ht htm
    by_cases hk : t < k
    · rw [hu ⟨t, htm⟩ hk]
      simp only [w, dif_pos hk]
      rw [smul_smul, mul_inv_cancel₀ (hpos t hk).ne', one_smul]
    · rw [hzero t (by omega), zero_smul]
      have := hinner ⟨t, ht⟩ ⟨t, ht⟩
      rw [if_pos rfl, hzero t (by omega)] at this
      exact inner_self_eq_zero.1 (by rw [this]; simp)
  have hTv0 : ∀ (t : ℕ) (ht : t < n), ¬ t < m → T (v ⟨t, ht⟩) = 0 := by
    intro t ht htm
    have := hinner ⟨t, ht⟩ ⟨t, ht⟩
    rw [if_pos rfl, hzero t (by omega)] at this
    exact inner_self_eq_zero.1 (by rw [this]; simp)
  refine ⟨fun i t => if h : i < m ∧ t < m then u ⟨t, h.2⟩ ⟨i, h.1⟩ else 0,
    fun t j => if h : t < n ∧ j < n then v ⟨t, h.1⟩ ⟨j, h.2⟩ else 0, fun t => T.singularValues t, ?_, ?_, ?_,
    T.singularValues_nonneg, fun s t h => T.singularValues_antitone h⟩
  · intro i hi j hj
    let e : E := EuclideanSpace.single ⟨j, hj⟩ (1 : ℝ)
    have h1 : T e ⟨i, hi⟩ = M i j := by
      rw [hT, sum_eq_single ⟨j, hj⟩]
      · simp [e]
      · intro b _ hb; simp [e, hb]
      · simp
    have h2 : e = ∑ t, (v t ⟨j, hj⟩) • v t := by
      have := v.sum_repr' e
      rw [← this]
      refine sum_congr rfl fun t _ => ?_
      congr 1
      rw [EuclideanSpace.inner_single_right]
      simp
    have h3 : T e = ∑ t, (v t ⟨j, hj⟩) • T (v t) := by
      conv_lhs => rw [h2]
      rw [map_sum]
      exact sum_congr rfl fun t _ => by rw [map_smul]
    have h4 : T e ⟨i, hi⟩ = ∑ t : Fin n, v t ⟨j, hj⟩ * T (v t) ⟨i, hi⟩ := by
      rw [h3, WithLp.ofLp_sum, Finset.sum_apply]
      rfl
    rw [← h1, h4]
    have h5 : ∑ t : Fin n, v t ⟨j, hj⟩ * T (v t) ⟨i, hi⟩
        = ∑ t ∈ range n, if h : t < n then v ⟨t, h⟩ ⟨j, hj⟩ * T (v ⟨t, h⟩) ⟨i, hi⟩ else 0 := by
      rw [Finset.sum_range]
      exact sum_congr rfl fun t _ => by rw [dif_pos t.2]
    rw [h5]
    refine (sum_subset (s₁ := range (min m n)) (by intro x hx; simp at hx ⊢; omega) ?_).symm.trans ?_ |>.symm
    · intro t ht ht'
      have htn : t < n := by simpa using ht
      rw [dif_pos htn, hTv0 t htn (by simp at ht'; omega)]
      simp
    · refine sum_congr rfl fun t ht => ?_
      have ht' : t < m ∧ t < n := by simpa using ht
      beta_reduce
      rw [dif_pos ht'.2, dif_pos ⟨hi, ht'.1⟩, dif_pos ⟨ht'.2, hj⟩, hTv t ht'.2 ht'.1]
      show _ * (T.singularValues t * u ⟨t, ht'.1⟩ ⟨i, hi⟩) = _
      ring
  · intro s hs t ht
    have := (orthonormal_iff_ite.1 u.orthonormal) ⟨s, hs⟩ ⟨t, ht⟩
    rw [Finset.sum_range]
    rw [show (if (⟨s, hs⟩ : Fin m) = ⟨t, ht⟩ then (1 : ℝ) else 0) = if s = t then 1 else 0 by simp] at this
    rw [← this, PiLp.inner_apply]
    refine sum_congr rfl fun i _ => ?_
    beta_reduce
    rw [dif_pos ⟨i.2, hs⟩, dif_pos ⟨i.2, ht⟩]
    simp [mul_comm]
  · intro s hs t ht
    have := (orthonormal_iff_ite.1 v.orthonormal) ⟨s, hs⟩ ⟨t, ht⟩
    rw [Finset.sum_range]
    rw [show (if (⟨s, hs⟩ : Fin n) = ⟨t, ht⟩ then (1 : ℝ) else 0) = if s = t then 1 else 0 by simp] at this
    rw [← this, PiLp.inner_apply]
    refine sum_congr rfl fun i _ => ?_
    beta_reduce
    rw [dif_pos ⟨hs, i.2⟩, dif_pos ⟨ht, i.2⟩]
    simp [mul_comm]

/-- A singular value decomposition routine. -/
noncomputable def svdChoice (u v : ℕ → ℕ → ℕ) (M : ND ℝ) : ND ℝ × List ℝ × ND ℝ :=
  let h := exists_svd (fun i j => M.get [i, j]) (M.dim 0) (M.dim 1)
  (ND.ofFn [M.dim 0, u (M.dim 0) (M.dim 1)] fun ij => h.choose (ij.getD 0 0) (ij.getD 1 0),
   (List.range (min (M.dim 0) (M.dim 1))).map h.choose_spec.choose_spec.choose,
   ND.ofFn [v (M.dim 0) (M.dim 1), M.dim 1] fun ij => h.choose_spec.choose (ij.getD 0 0) (ij.getD 1 0))

theorem svdChoice_spec (u v : ℕ → ℕ → ℕ) (M : ND ℝ) (m n : ℕ) (hM : M.shape = [m, n])
    (hu : min m n ≤ u m n ∧ u m n ≤ m) (hv : min m n ≤ v m n ∧ v m n ≤ n) :
    IsSVD M (svdChoice u v M).1 (svdChoice u v M).2.1 (svdChoice u v M).2.2 m n (u m n) (v m n) := by
  have h0 : m = M.dim 0 := by simp [ND.dim, hM]
  have h1 : n = M.dim 1 := by simp [ND.dim, hM]
  subst h0 h1
  unfold svdChoice
  dsimp only
  have H := (exists_svd (fun i j => M.get [i, j]) (M.dim 0) (M.dim 1)).choose_spec.choose_spec.choose_spec
  generalize (exists_svd (fun i j => M.get [i, j]) (M.dim 0) (M.dim 1)).choose_spec.choose_spec.choose = S at *
  generalize (exists_svd (fun i j => M.get [i, j]) (M.dim 0) (M.dim 1)).choose_spec.choose = V at *
  generalize (exists_svd (fun i j => M.get [i, j]) (M.dim 0) (M.dim 1)).choose = U at *
  obtain ⟨H1, H2, H3, H4, H5⟩ := H
  clear hM
  generalize M.dim 0 = m at *
  generalize M.dim 1 = n at *
  have gU : ∀ i < m, ∀ t < u m n, (ND.ofFn [m, u m n] fun ij => U (ij.getD 0 0) (ij.getD 1 0)).get [i, t] = U i t :=
    fun i hi t ht => ND.ofFn_get ⟨hi, ht, trivial⟩
  have gV : ∀ t < v m n, ∀ j < n, (ND.ofFn [v m n, n] fun ij => V (ij.getD 0 0) (ij.getD 1 0)).get [t, j] = V t j :=
    fun i hi t ht => ND.ofFn_get ⟨hi, ht, trivial⟩
  have gS : ∀ t, ((List.range (min m n)).map S).getD t 0 = if t < min m n then S t else 0 := by
    intro t
    split_ifs with h
    · rw [getD_map_range' _ _ _ h]
    · rw [List.getD_eq_default _ _ (by simp; omega)]
  refine ⟨rfl, rfl, by simp, fun i hi j hj => ?_, fun s hs t ht => ?_, fun s hs t ht => ?_, fun t => ?_,
    fun s t hst => ?_⟩
  · rw [← H1 i hi j hj]
    refine sum_congr rfl fun t ht => ?_
    have ht : t < min m n := by simpa using ht
    rw [gU i hi t (by omega), gV t (by omega) j hj, gS, if_pos ht]
  · rw [← H2 s (by omega) t (by omega)]
    refine sum_congr rfl fun i hi => ?_
    rw [gU i (by simpa using hi) s hs, gU i (by simpa using hi) t ht]
  · rw [← H3 s (by omega) t (by omega)]
    refine sum_congr rfl fun i hi => ?_
    rw [gV s hs i (by simpa using hi), gV t ht i (by simpa using hi)]
  · rw [gS]; split_ifs; exacts [H4 t, le_refl _]
  · rw [gS, gS]
    split_ifs
    · exact H5 s t hst
    · omega
    · exact H4 s
    · exact le_refl _
where
  getD_map_range' (f : ℕ → ℝ) (n t : ℕ) (h : t < n) : ((List.range n).map f).getD t 0 = f t := by
    rw [List.getD_eq_getElem _ _ (by simpa using h)]; simp

/-- Factorisation routines meeting all contracts. -/
noncomputable def laChoice : LinAlg := ⟨qrChoice, svdChoice (fun m _ => m) fun _ n => n, svdChoice min min⟩

theorem laChoice_qr : laChoice.QROk := fun M m n h =>
  qrChoice_contract (env := ⟨fun _ => 0, 0, fun _ _ => 0, fun _ _ => 0, fun _ _ _ => 0, fun _ _ _ => 0, fun _ => 0,
    fun A _ => A, qrChoice, fun _ => 0⟩) rfl M m n h

theorem laChoice_svd : laChoice.SVDOk := fun M m n h =>
  svdChoice_spec (fun m _ => m) (fun _ n => n) M m n h ⟨min_le_left _ _, le_refl _⟩ ⟨min_le_right _ _, le_refl _⟩

theorem laChoice_svdThin : laChoice.SVDThinOk := fun M m n h =>
  svdChoice_spec min min M m n h ⟨le_refl _, min_le_left _ _⟩ ⟨le_refl _, min_le_right _ _⟩

end TTS
