import Verif.Proofs.GaussInv
import Verif.Proofs.PolyNull
import Verif.Proofs.ProbGauss
import Mathlib.LinearAlgebra.Matrix.Rank
import Mathlib.Data.Matrix.ColumnRowPartitioned

/-!
# The mean error of a Gaussian range finder
-/

namespace TTS

open MeasureTheory ProbabilityTheory Matrix
open scoped ENNReal

/-- squared Frobenius norm -/
def fsq {m n : Type*} [Fintype m] [Fintype n] (A : Matrix m n ℝ) : ℝ := ∑ i, ∑ j, A i j ^ 2

section
variable {m n p q : Type*} [Fintype m] [Fintype n] [Fintype p] [Fintype q]

theorem fsq_nonneg (A : Matrix m n ℝ) : 0 ≤ fsq A := Finset.sum_nonneg fun _ _ => Finset.sum_nonneg fun _ _ => sq_nonneg _

theorem fsq_trace (A : Matrix m n ℝ) : fsq A = (A * Aᵀ).trace := by
  simp only [fsq, Matrix.trace, Matrix.diag, Matrix.mul_apply, Matrix.transpose_apply, sq]

theorem fsq_neg (A : Matrix m n ℝ) : fsq (-A) = fsq A := by simp [fsq]

theorem fsq_transpose (A : Matrix m n ℝ) : fsq Aᵀ = fsq A := by
  unfold fsq
  rw [Finset.sum_comm]
  rfl

/-- an orthogonal splitting of the columns -/
theorem fsq_split [DecidableEq n] (A : Matrix m n ℝ) (M : Matrix p n ℝ) (N : Matrix q n ℝ) (h : Mᵀ * M + Nᵀ * N = 1) :
    fsq A = fsq (A * Mᵀ) + fsq (A * Nᵀ) := by
  rw [fsq_trace, fsq_trace, fsq_trace, ← Matrix.trace_add]
  congr 1
  simp only [Matrix.transpose_mul, Matrix.transpose_transpose]
  calc A * Aᵀ = A * (Mᵀ * M + Nᵀ * N) * Aᵀ := by rw [h, Matrix.mul_one]
    _ = _ := by simp only [Matrix.mul_add, Matrix.add_mul, Matrix.mul_assoc]

theorem fsq_measurable {α : Type*} [MeasurableSpace α] {W : α → Matrix m n ℝ} (h : MMeas W) :
    Measurable fun a => fsq (W a) :=
  Finset.measurable_sum _ fun i _ => Finset.measurable_sum _ fun j _ => (h i j).pow_const 2

/-- second moment of a Gaussian matrix between two fixed ones -/
theorem stdG_sandwich' (D : Matrix m n ℝ) (C : Matrix m p ℝ) (F : Matrix q n ℝ) :
    ∫⁻ G, ENNReal.ofReal (fsq (D + C * gm G * F)) ∂(stdG (p × q)) = ENNReal.ofReal (fsq D + fsq C * fsq F) := by
  have e : ∀ G : p × q → ℝ, ENNReal.ofReal (fsq (D + C * gm G * F))
      = ∑ i, ∑ j, ENNReal.ofReal ((D i j + ∑ s : p × q, C i s.1 * F s.2 j * G s) ^ 2) := by
    intro G
    unfold fsq
    rw [ENNReal.ofReal_sum_of_nonneg (fun i _ => Finset.sum_nonneg fun j _ => sq_nonneg ((D + C * gm G * F) i j))]
    refine Finset.sum_congr rfl fun i _ => ?_
    rw [ENNReal.ofReal_sum_of_nonneg (fun j _ => sq_nonneg ((D + C * gm G * F) i j))]
    refine Finset.sum_congr rfl fun j _ => ?_
    congr 2
    simp only [Matrix.add_apply, Matrix.mul_apply, gm, Matrix.of_apply, Finset.sum_mul]
    congr 1
    rw [Finset.sum_comm, Fintype.sum_prod_type]
    exact Finset.sum_congr rfl fun a _ => Finset.sum_congr rfl fun b _ => by ring
  have hin : ∀ i, ∫⁻ G, ∑ j, ENNReal.ofReal ((D i j + ∑ s : p × q, C i s.1 * F s.2 j * G s) ^ 2) ∂(stdG (p × q))
      = ∑ j, ENNReal.ofReal (D i j ^ 2 + ∑ s : p × q, (C i s.1 * F s.2 j) ^ 2) := by
    intro i
    rw [lintegral_finsetSum _ fun j _ => by fun_prop]
    exact Finset.sum_congr rfl fun j _ => stdG_affine_sq _ _
  have hnn : ∀ i j, 0 ≤ D i j ^ 2 + ∑ s : p × q, (C i s.1 * F s.2 j) ^ 2 := fun i j =>
    add_nonneg (sq_nonneg _) (Finset.sum_nonneg fun _ _ => sq_nonneg _)
  rw [lintegral_congr e, lintegral_finsetSum _ fun i _ => by fun_prop, Finset.sum_congr rfl fun i _ => hin i]
  rw [Finset.sum_congr rfl fun i _ => (ENNReal.ofReal_sum_of_nonneg fun j _ => hnn i j).symm,
    ← ENNReal.ofReal_sum_of_nonneg fun i _ => Finset.sum_nonneg fun j _ => hnn i j]
  congr 1
  simp only [Finset.sum_add_distrib]
  unfold fsq
  congr 1
  simp only [Fintype.sum_prod_type, mul_pow]
  rw [Finset.sum_mul]
  refine Finset.sum_congr rfl fun i _ => ?_
  rw [Finset.sum_comm, Finset.sum_mul]
  refine Finset.sum_congr rfl fun a _ => ?_
  rw [Finset.sum_comm, Finset.mul_sum]
  exact Finset.sum_congr rfl fun b _ => by rw [Finset.mul_sum]

theorem stdG_sandwich (C : Matrix m p ℝ) (F : Matrix q n ℝ) :
    ∫⁻ G, ENNReal.ofReal (fsq (C * gm G * F)) ∂(stdG (p × q)) = ENNReal.ofReal (fsq C * fsq F) := by
  have := stdG_sandwich' (0 : Matrix m n ℝ) C F
  simpa [fsq] using this

end

/-- the pseudo-inverse of a wide matrix -/
noncomputable def rinv {k l : ℕ} (W : Matrix (Fin k) (Fin l) ℝ) : Matrix (Fin l) (Fin k) ℝ := Wᵀ * (W * Wᵀ)⁻¹

theorem mul_rinv {k l : ℕ} {W : Matrix (Fin k) (Fin l) ℝ} (h : (W * Wᵀ).det ≠ 0) : W * rinv W = 1 := by
  rw [rinv, ← Matrix.mul_assoc, Matrix.mul_nonsing_inv _ (isUnit_iff_ne_zero.2 h)]

theorem fsq_rinv {k l : ℕ} (W : Matrix (Fin k) (Fin l) ℝ) : fsq (rinv W) = ∑ i, (W * Wᵀ)⁻¹ i i := by
  by_cases h : IsUnit (W * Wᵀ).det
  · rw [← fsq_transpose, fsq_trace, Matrix.transpose_transpose, rinv, Matrix.transpose_mul, Matrix.transpose_transpose,
      Matrix.transpose_nonsing_inv, Matrix.transpose_mul, Matrix.transpose_transpose, Matrix.mul_assoc,
      ← Matrix.mul_assoc W, Matrix.mul_nonsing_inv _ h, Matrix.mul_one]
    rfl
  · rw [rinv, Matrix.nonsing_inv_apply_not_isUnit _ h]
    simp [fsq]

theorem rinv_meas {k l : ℕ} : MMeas fun G : Fin k × Fin l → ℝ => rinv (gm G) :=
  MMeas.gm.transpose.mul (MMeas.gm.mul MMeas.gm.transpose).inv

/-- a Gaussian matrix with no more rows than columns has full rank -/
theorem stdG_det_ne {k l : ℕ} (h : k ≤ l) : ∀ᵐ G ∂(stdG (Fin k × Fin l)), (gm G * (gm G)ᵀ).det ≠ 0 := by
  set Q : Matrix (Fin k) (Fin l) (MvPolynomial (Fin k × Fin l) ℝ) := Matrix.of fun i j => MvPolynomial.X (i, j) with hQ
  have ev : ∀ w : Fin k × Fin l → ℝ, MvPolynomial.eval w (Q * Qᵀ).det = (gm w * (gm w)ᵀ).det := by
    intro w
    rw [RingHom.map_det, RingHom.mapMatrix_apply, Matrix.map_mul]
    congr 2
    · ext i j; simp [hQ, gm]
    · ext i j; simp [hQ, gm]
  set w : Fin k × Fin l → ℝ := fun s => if (s.1 : ℕ) = s.2 then 1 else 0 with hw
  have hw1 : gm w * (gm w)ᵀ = 1 := by
    ext i j
    simp only [Matrix.mul_apply, gm, hw, Matrix.of_apply, Matrix.transpose_apply, Matrix.one_apply]
    rw [Finset.sum_eq_single ⟨i, by omega⟩]
    · simp [Fin.ext_iff, eq_comm]
    · intro b _ hb
      have : ¬ (i : ℕ) = b := fun h => hb (Fin.ext h.symm)
      simp [this]
    · simp
  have h0 := poly_null (Q * Qᵀ).det w (by rw [ev, hw1, Matrix.det_one]; exact one_ne_zero)
  have hac : stdG (Fin k × Fin l) ≪ (volume : Measure (Fin k × Fin l → ℝ)) :=
    pi_ac _ _ (gaussianReal_absolutelyContinuous 0 one_ne_zero)
  have := hac h0
  rw [ae_iff]
  refine measure_mono_null (fun G hG => ?_) this
  simp only [ne_eq, not_not, Set.mem_ofPred_eq] at hG ⊢
  rw [ev, hG]

theorem ofReal_sum_le {ι : Type*} (s : Finset ι) (f : ι → ℝ) :
    ENNReal.ofReal (∑ i ∈ s, f i) ≤ ∑ i ∈ s, ENNReal.ofReal (f i) := by
  classical
  induction s using Finset.induction_on with
  | empty => simp
  | insert a s ha ih =>
    rw [Finset.sum_insert ha, Finset.sum_insert ha]
    exact ENNReal.ofReal_add_le.trans (add_le_add le_rfl ih)

/-- the mean squared norm of the pseudo-inverse -/
theorem stdG_rinv {k l : ℕ} (h : k + 2 ≤ l) :
    ∫⁻ G, ENNReal.ofReal (fsq (rinv (gm G))) ∂(stdG (Fin k × Fin l)) ≤ ENNReal.ofReal ((k : ℝ) / ((l : ℝ) - k - 1)) := by
  have hk : (k : ℝ) + 2 ≤ l := by exact_mod_cast h
  have e : ∀ G : Fin k × Fin l → ℝ, ENNReal.ofReal (fsq (rinv (gm G)))
      ≤ ∑ i, ENNReal.ofReal ((gm G * (gm G)ᵀ)⁻¹ i i) := fun G => by
    rw [fsq_rinv]
    exact ofReal_sum_le _ _
  refine (lintegral_mono e).trans ?_
  rw [lintegral_finsetSum _ fun i _ => ((MMeas.gm.mul MMeas.gm.transpose).inv i i).ennreal_ofReal]
  calc _ ≤ ∑ _i : Fin k, ENNReal.ofReal (1 / ((l : ℝ) - k - 1)) := Finset.sum_le_sum fun i _ => stdG_gram_inv i h
    _ = _ := by
      rw [Finset.sum_const, Finset.card_univ, Fintype.card_fin, nsmul_eq_mul, ← ENNReal.ofReal_natCast,
        ← ENNReal.ofReal_mul (Nat.cast_nonneg _)]
      congr 1
      ring

/-- orthonormal bases of the row space and of its complement -/
theorem exists_frame {m : Type*} [Fintype m] {N : ℕ} (B : Matrix m (Fin N) ℝ) :
    ∃ (r q : ℕ) (M : Matrix (Fin r) (Fin N) ℝ) (M' : Matrix (Fin q) (Fin N) ℝ), r = B.rank ∧ M * Mᵀ = 1 ∧ M' * M'ᵀ = 1 ∧
      M * M'ᵀ = 0 ∧ Mᵀ * M + M'ᵀ * M' = 1 ∧ B * M'ᵀ = 0 := by
  classical
  set U : Submodule ℝ (EuclideanSpace ℝ (Fin N)) := Submodule.span ℝ (Set.range fun i => WithLp.toLp 2 (B i)) with hU
  have hfr : Module.finrank ℝ U = B.rank := by
    rw [Matrix.rank_eq_finrank_span_row]
    have : U = (Submodule.span ℝ (Set.range B.row)).map
        ((WithLp.linearEquiv 2 ℝ (Fin N → ℝ)).symm : (Fin N → ℝ) →ₗ[ℝ] EuclideanSpace ℝ (Fin N)) := by
      rw [hU, Submodule.map_span, ← Set.range_comp]
      rfl
    rw [this]
    exact LinearEquiv.finrank_map_eq _ _
  have hsum := U.finrank_add_finrank_orthogonal
  rw [finrank_euclideanSpace_fin, hfr] at hsum
  set b := (stdOrthonormalBasis ℝ U).reindex (finCongr hfr) with hb
  set c := stdOrthonormalBasis ℝ Uᗮ with hc
  set M : Matrix (Fin B.rank) (Fin N) ℝ := Matrix.of fun a j => (b a : EuclideanSpace ℝ (Fin N)) j with hM
  set M' : Matrix (Fin (Module.finrank ℝ Uᗮ)) (Fin N) ℝ := Matrix.of fun a j => (c a : EuclideanSpace ℝ (Fin N)) j with hM'
  have ip : ∀ x y : EuclideanSpace ℝ (Fin N), inner ℝ x y = ∑ j, x j * y j := fun x y => by
    rw [PiLp.inner_apply]
    exact Finset.sum_congr rfl fun j _ => by rw [RCLike.inner_apply, conj_trivial, mul_comm]
  have h1 : M * Mᵀ = 1 := by
    ext x y
    have h := orthonormal_iff_ite.1 b.orthonormal x y
    rw [Submodule.coe_inner, ip] at h
    rw [Matrix.one_apply, ← h, Matrix.mul_apply]
    rfl
  have h2 : M' * M'ᵀ = 1 := by
    ext x y
    have h := orthonormal_iff_ite.1 c.orthonormal x y
    rw [Submodule.coe_inner, ip] at h
    rw [Matrix.one_apply, ← h, Matrix.mul_apply]
    rfl
  have h3 : M * M'ᵀ = 0 := by
    ext x y
    have h := (Submodule.mem_orthogonal _ _).1 (c y).2 _ (b x).2
    rw [ip] at h
    rw [Matrix.zero_apply, ← h, Matrix.mul_apply]
    rfl
  refine ⟨_, _, M, M', rfl, h1, h2, h3, ?_, ?_⟩
  · have hs : Matrix.fromRows M M' * (Matrix.fromRows M M')ᵀ = 1 := by
      rw [Matrix.transpose_fromRows, Matrix.fromRows_mul_fromCols, h1, h2, h3]
      have h4 : M' * Mᵀ = 0 := by
        have := congrArg Matrix.transpose h3
        rwa [Matrix.transpose_mul, Matrix.transpose_transpose, Matrix.transpose_zero] at this
      rw [h4, Matrix.fromBlocks_one]
    have hs2 := (Matrix.mul_eq_one_comm_of_card_eq _ _ _ (by simpa using hsum)).1 hs
    rw [Matrix.transpose_fromRows, Matrix.fromCols_mul_fromRows] at hs2
    exact hs2
  · ext x y
    have h := (Submodule.mem_orthogonal _ _).1 (c y).2 _ (Submodule.subset_span ⟨x, rfl⟩)
    rw [ip] at h
    rw [Matrix.zero_apply, ← h, Matrix.mul_apply]
    rfl

/-- the entries of a matrix -/
def ent {k l : Type*} (W : Matrix k l ℝ) : k × l → ℝ := fun p => W p.1 p.2

@[simp] theorem gm_ent {k l : Type*} (W : Matrix k l ℝ) : gm (ent W) = W := rfl

/-- matrices with orthonormal rows, acting on Gaussian matrices -/
theorem stdG_mul {r N l : ℕ} (M : Matrix (Fin r) (Fin N) ℝ) (h1 : M * Mᵀ = 1) :
    (stdG (Fin N × Fin l)).map (fun G => ent (M * gm G)) = stdG (Fin r × Fin l) := by
  classical
  set T : Matrix (Fin r × Fin l) (Fin N × Fin l) ℝ := Matrix.of fun p x => if p.2 = x.2 then M p.1 x.1 else 0 with hT
  have hTT : T * Tᵀ = 1 := by
    ext s t
    rw [Matrix.mul_apply, Fintype.sum_prod_type]
    have : ∀ x : Fin N, ∑ y : Fin l, T s (x, y) * Tᵀ (x, y) t = if s.2 = t.2 then M s.1 x * M t.1 x else 0 := by
      intro x
      simp only [hT, Matrix.of_apply, Matrix.transpose_apply]
      rw [Finset.sum_eq_single s.2]
      · by_cases h : s.2 = t.2
        · simp [h]
        · simp [h, Ne.symm h]
      · intro b _ hb
        simp [hb.symm]
      · simp
    rw [Finset.sum_congr rfl fun x _ => this x]
    have h := congrFun (congrFun h1 s.1) t.1
    rw [Matrix.mul_apply] at h
    simp only [Matrix.transpose_apply, Matrix.one_apply] at h
    simp only [Matrix.one_apply, Prod.ext_iff]
    by_cases hb : s.2 = t.2
    · simp only [hb, if_true, and_true]
      exact h
    · simp [hb]
  rw [← stdG_map_matrix T hTT]
  congr 1
  funext G
  funext p
  simp only [ent, Matrix.mul_apply, gm, Matrix.of_apply, Matrix.mulVec, dotProduct, hT]
  rw [Fintype.sum_prod_type]
  exact Finset.sum_congr rfl fun x _ => by simp

/-- the parts of a Gaussian matrix in a subspace and in its complement are independent Gaussian matrices -/
theorem stdG_frame {r q N l : ℕ} (M : Matrix (Fin r) (Fin N) ℝ) (M' : Matrix (Fin q) (Fin N) ℝ) (h1 : M * Mᵀ = 1)
    (h2 : M' * M'ᵀ = 1) (h3 : M * M'ᵀ = 0) (Φ : (Fin r × Fin l → ℝ) → (Fin q × Fin l → ℝ) → ℝ≥0∞)
    (hΦm : Measurable fun p : (Fin r × Fin l → ℝ) × (Fin q × Fin l → ℝ) => Φ p.1 p.2) :
    ∫⁻ G, Φ (ent (M * gm G)) (ent (M' * gm G)) ∂(stdG (Fin N × Fin l))
      = ∫⁻ y, ∫⁻ z, Φ y z ∂(stdG (Fin q × Fin l)) ∂(stdG (Fin r × Fin l)) := by
  classical
  have h3' : M' * Mᵀ = 0 := by
    have := congrArg Matrix.transpose h3
    rwa [Matrix.transpose_mul, Matrix.transpose_transpose, Matrix.transpose_zero] at this
  set T : Matrix ((Fin r × Fin l) ⊕ (Fin q × Fin l)) (Fin N × Fin l) ℝ := Matrix.of fun s x =>
    Sum.elim (fun p => if p.2 = x.2 then M p.1 x.1 else 0) (fun p => if p.2 = x.2 then M' p.1 x.1 else 0) s with hT
  have hTT : T * Tᵀ = 1 := by
    have key : ∀ {a b : ℕ} (X : Matrix (Fin a) (Fin N) ℝ) (Y : Matrix (Fin b) (Fin N) ℝ) (s : Fin a × Fin l)
        (t : Fin b × Fin l), ∑ x : Fin N × Fin l, (if s.2 = x.2 then X s.1 x.1 else 0) * (if t.2 = x.2 then Y t.1 x.1 else 0)
          = if s.2 = t.2 then (X * Yᵀ) s.1 t.1 else 0 := by
      intro a b X Y s t
      rw [Fintype.sum_prod_type]
      simp only [Matrix.mul_apply, Matrix.transpose_apply]
      split
      · next hst =>
        refine Finset.sum_congr rfl fun x _ => ?_
        rw [Finset.sum_eq_single s.2]
        · simp [hst]
        · intro b _ hb
          simp [hb.symm]
        · simp
      · next hst =>
        refine Finset.sum_eq_zero fun x _ => Finset.sum_eq_zero fun y _ => ?_
        by_cases hy : s.2 = y
        · have : ¬ t.2 = y := fun h => hst (hy.trans h.symm)
          simp [this]
        · simp [hy]
    ext s t
    rw [Matrix.mul_apply]
    rcases s with s | s <;> rcases t with t | t
    · refine (key M M s t).trans ?_
      rw [h1]
      simp only [Matrix.one_apply, Sum.inl.injEq, Prod.ext_iff]
      by_cases ha : s.1 = t.1 <;> by_cases hb : s.2 = t.2 <;> simp [ha, hb]
    · refine (key M M' s t).trans ?_
      rw [h3]
      simp
    · refine (key M' M s t).trans ?_
      rw [h3']
      simp
    · refine (key M' M' s t).trans ?_
      rw [h2]
      simp only [Matrix.one_apply, Sum.inr.injEq, Prod.ext_iff]
      by_cases ha : s.1 = t.1 <;> by_cases hb : s.2 = t.2 <;> simp [ha, hb]
  have hTl : ∀ G : Fin N × Fin l → ℝ, gm (fun p => (T *ᵥ G) (.inl p)) = M * gm G := by
    intro G
    ext i j
    simp only [gm, Matrix.of_apply, Matrix.mulVec, dotProduct, hT, Sum.elim_inl, Matrix.mul_apply]
    rw [Fintype.sum_prod_type]
    exact Finset.sum_congr rfl fun x _ => by simp
  have hTr : ∀ G : Fin N × Fin l → ℝ, gm (fun p => (T *ᵥ G) (.inr p)) = M' * gm G := by
    intro G
    ext i j
    simp only [gm, Matrix.of_apply, Matrix.mulVec, dotProduct, hT, Sum.elim_inr, Matrix.mul_apply]
    rw [Fintype.sum_prod_type]
    exact Finset.sum_congr rfl fun x _ => by simp
  have hTm : Measurable fun x : Fin N × Fin l → ℝ => T *ᵥ x := by
    refine measurable_pi_lambda _ fun k => ?_
    simp only [Matrix.mulVec, dotProduct]
    fun_prop
  have e1 : ∀ G : Fin N × Fin l → ℝ, Φ (ent (M * gm G)) (ent (M' * gm G))
      = (fun x : (Fin r × Fin l) ⊕ (Fin q × Fin l) → ℝ => Φ (fun p => x (.inl p)) (fun p => x (.inr p))) (T *ᵥ G) := by
    intro G
    show _ = Φ (ent (gm fun p => (T *ᵥ G) (.inl p))) (ent (gm fun p => (T *ᵥ G) (.inr p)))
    rw [hTl, hTr]
  have hm : Measurable fun x : (Fin r × Fin l) ⊕ (Fin q × Fin l) → ℝ => Φ (fun p => x (.inl p)) (fun p => x (.inr p)) :=
    hΦm.comp (f := fun x : (Fin r × Fin l) ⊕ (Fin q × Fin l) → ℝ => ((fun p => x (.inl p)), fun p => x (.inr p)))
      (by fun_prop)
  rw [lintegral_congr e1, ← lintegral_map hm hTm, stdG_map_matrix T hTT, stdG_sum Φ hΦm]

/-- The error of the projection along a random subspace onto the row space of `M`. -/
theorem frame_mean {m : Type*} [Fintype m] {r q N l : ℕ} (A : Matrix m (Fin N) ℝ) (M : Matrix (Fin r) (Fin N) ℝ)
    (M' : Matrix (Fin q) (Fin N) ℝ) (h1 : M * Mᵀ = 1) (h2 : M' * M'ᵀ = 1) (h3 : M * M'ᵀ = 0)
    (h4 : Mᵀ * M + M'ᵀ * M' = 1) (hrl : r + 2 ≤ l) :
    ∫⁻ G, ENNReal.ofReal (fsq (A - A * gm G * (rinv (M * gm G) * M))) ∂(stdG (Fin N × Fin l))
      ≤ ENNReal.ofReal ((1 + (r : ℝ) / ((l : ℝ) - r - 1)) * fsq (A * M'ᵀ)) := by
  classical
  set C := A * M'ᵀ with hC
  -- the error as a function of the blocks
  set Φ : (Fin r × Fin l → ℝ) → (Fin q × Fin l → ℝ) → ℝ≥0∞ := fun y z =>
    ENNReal.ofReal (fsq (A - A * (Mᵀ * gm y + M'ᵀ * gm z) * (rinv (gm y) * M))) with hΦ
  have m1 : MMeas fun p : (Fin r × Fin l → ℝ) × (Fin q × Fin l → ℝ) => gm p.1 := MMeas.gm.comp measurable_fst
  have m2 : MMeas fun p : (Fin r × Fin l → ℝ) × (Fin q × Fin l → ℝ) => gm p.2 := MMeas.gm.comp measurable_snd
  have m3 : MMeas fun p : (Fin r × Fin l → ℝ) × (Fin q × Fin l → ℝ) => rinv (gm p.1) := rinv_meas.comp measurable_fst
  have hΦm : Measurable fun p : (Fin r × Fin l → ℝ) × (Fin q × Fin l → ℝ) => Φ p.1 p.2 := by
    refine (fsq_measurable ((MMeas.const A).sub (((MMeas.const A).mul fun i j => ?_).mul
      (m3.mul (MMeas.const M))))).ennreal_ofReal
    exact (((MMeas.const Mᵀ).mul m1) i j).add (((MMeas.const M'ᵀ).mul m2) i j)
  have e1 : ∀ G : Fin N × Fin l → ℝ, ENNReal.ofReal (fsq (A - A * gm G * (rinv (M * gm G) * M)))
      = Φ (ent (M * gm G)) (ent (M' * gm G)) := by
    intro G
    simp only [hΦ, gm_ent]
    rw [← Matrix.mul_assoc Mᵀ, ← Matrix.mul_assoc M'ᵀ, ← Matrix.add_mul, h4, Matrix.one_mul]
  rw [lintegral_congr e1, stdG_frame M M' h1 h2 h3 Φ hΦm]
  have e2 : ∀ᵐ y ∂(stdG (Fin r × Fin l)), ∫⁻ z, Φ y z ∂(stdG (Fin q × Fin l))
      = ENNReal.ofReal (fsq C) * (1 + ENNReal.ofReal (fsq (rinv (gm y)))) := by
    filter_upwards [stdG_det_ne (k := r) (l := l) (by omega)] with y hy
    have e3 : ∀ z, Φ y z = ENNReal.ofReal (fsq C) + ENNReal.ofReal (fsq (C * gm z * rinv (gm y))) := by
      intro z
      simp only [hΦ]
      rw [← ENNReal.ofReal_add (fsq_nonneg _) (fsq_nonneg _)]
      congr 1
      rw [fsq_split _ M M' h4, add_comm]
      congr 1
      · congr 1
        rw [Matrix.sub_mul, Matrix.mul_assoc (A * _), Matrix.mul_assoc (rinv _), h3, Matrix.mul_zero, Matrix.mul_zero,
          sub_zero]
      · rw [← fsq_neg]
        congr 1
        rw [Matrix.sub_mul, Matrix.mul_assoc (A * _), Matrix.mul_assoc (rinv _), h1, Matrix.mul_one, Matrix.mul_add,
          Matrix.add_mul, ← Matrix.mul_assoc, ← Matrix.mul_assoc, Matrix.mul_assoc (A * Mᵀ), mul_rinv hy, Matrix.mul_one,
          ← hC]
        abel
    rw [lintegral_congr e3, lintegral_add_left measurable_const, lintegral_const, measure_univ, mul_one, stdG_sandwich,
      ENNReal.ofReal_mul (fsq_nonneg _), mul_add, mul_one]
  have hmm : Measurable fun a : Fin r × Fin l → ℝ => 1 + ENNReal.ofReal (fsq (rinv (gm a))) :=
    measurable_const.add (fsq_measurable rinv_meas).ennreal_ofReal
  rw [lintegral_congr_ae e2, lintegral_const_mul _ hmm,
    lintegral_add_left measurable_const, lintegral_const, measure_univ, mul_one]
  have hrl' : (r : ℝ) + 2 ≤ l := by exact_mod_cast hrl
  have hp : 0 ≤ (r : ℝ) / ((l : ℝ) - r - 1) := div_nonneg (Nat.cast_nonneg _) (by linarith)
  refine (mul_le_mul' le_rfl (add_le_add le_rfl (stdG_rinv hrl))).trans (le_of_eq ?_)
  rw [← ENNReal.ofReal_one, ← ENNReal.ofReal_add zero_le_one hp, ← ENNReal.ofReal_mul (fsq_nonneg _), mul_comm]

theorem ratio_mono {r k l : ℕ} (hB : r ≤ k) (h : k + 2 ≤ l) :
    (r : ℝ) / ((l : ℝ) - r - 1) ≤ (k : ℝ) / ((l : ℝ) - k - 1) := by
  have hrk : (r : ℝ) ≤ k := by exact_mod_cast hB
  have hkl : (k : ℝ) + 2 ≤ l := by exact_mod_cast h
  exact div_le_div₀ (Nat.cast_nonneg _) hrk (by linarith) (by linarith)

theorem ratio_nonneg {k l : ℕ} (h : k + 2 ≤ l) : 0 ≤ (k : ℝ) / ((l : ℝ) - k - 1) := by
  have hkl : (k : ℝ) + 2 ≤ l := by exact_mod_cast h
  exact div_nonneg (Nat.cast_nonneg _) (by linarith)

/-- **Gaussian range finder**: for a matrix `A` and a matrix `B` of rank at most `k`, the columns of `A G`, `G` a
Gaussian matrix with `l ≥ k + 2` columns, approximate `A` with mean squared error at most `1 + k/(l-k-1)` times the
squared error of `B`. -/
theorem range_finder {m : Type*} [Fintype m] {N : ℕ} (A B : Matrix m (Fin N) ℝ) {k l : ℕ} (hB : B.rank ≤ k) (h : k + 2 ≤ l) :
    ∃ F : (Fin N × Fin l → ℝ) → Matrix (Fin l) (Fin N) ℝ, MMeas F ∧
      ∫⁻ G, ENNReal.ofReal (fsq (A - A * gm G * F G)) ∂(stdG (Fin N × Fin l))
        ≤ ENNReal.ofReal ((1 + (k : ℝ) / ((l : ℝ) - k - 1)) * fsq (A - B)) := by
  obtain ⟨r, q, M, M', hr, h1, h2, h3, h4, h5⟩ := exists_frame B
  rw [← hr] at hB
  have hCB : fsq (A * M'ᵀ) ≤ fsq (A - B) := by
    rw [fsq_split (A - B) M M' h4, Matrix.sub_mul A B M'ᵀ, h5, sub_zero]
    linarith [fsq_nonneg ((A - B) * Mᵀ)]
  have hm : Measurable fun G : Fin N × Fin l → ℝ => ent (M * gm G) :=
    measurable_pi_lambda _ fun p => ((MMeas.const M).mul MMeas.gm) p.1 p.2
  refine ⟨fun G => rinv (M * gm G) * M, (rinv_meas.comp hm).mul (MMeas.const M), ?_⟩
  refine (frame_mean A M M' h1 h2 h3 h4 (by omega)).trans (ENNReal.ofReal_le_ofReal ?_)
  have := ratio_mono hB h
  have := ratio_nonneg h
  exact mul_le_mul (by linarith) hCB (fsq_nonneg _) (by linarith)

/-- Enough columns give the range itself. -/
theorem range_exact {m : Type*} [Fintype m] {N : ℕ} (A : Matrix m (Fin N) ℝ) {l : ℕ} (h : A.rank ≤ l) :
    ∀ᵐ G ∂(stdG (Fin N × Fin l)), ∃ F, A - A * gm G * F = 0 := by
  obtain ⟨r, q, M, M', hr, h1, h2, h3, h4, h5⟩ := exists_frame A
  have hm : Measurable fun G : Fin N × Fin l → ℝ => ent (M * gm G) :=
    measurable_pi_lambda _ fun p => ((MMeas.const M).mul MMeas.gm) p.1 p.2
  have hd := stdG_det_ne (k := r) (l := l) (by omega)
  rw [← stdG_mul M h1] at hd
  filter_upwards [ae_of_ae_map hm.aemeasurable hd] with G hG
  rw [gm_ent] at hG
  have hA : A = A * Mᵀ * M := by
    conv_lhs => rw [← Matrix.mul_one A, ← h4, Matrix.mul_add, ← Matrix.mul_assoc, ← Matrix.mul_assoc, h5, Matrix.zero_mul,
      add_zero]
  refine ⟨rinv (M * gm G) * M, ?_⟩
  rw [sub_eq_zero]
  conv_rhs => rw [hA, Matrix.mul_assoc _ M, Matrix.mul_assoc (A * Mᵀ), ← Matrix.mul_assoc (M * gm G), mul_rinv hG,
    Matrix.one_mul, ← hA]

end TTS
