import Verif.Proofs.GaussRange
import Verif.Proofs.NystromChain

/-!
# The mean error of generalised Nyström approximations with Gaussian matrices
-/

namespace TTS

open MeasureTheory ProbabilityTheory Matrix
open scoped ENNReal

/-- Sketches that keep the row space and the column space lose nothing. -/
theorem nystrom_exact {m n p q : Type*} [Fintype m] [Fintype n] [Fintype p] [Fintype q] {A : Matrix m n ℝ}
    {L : Matrix p m ℝ} {R : Matrix n q ℝ} {G : Matrix q p ℝ} {F : Matrix q n ℝ} {H : Matrix m p ℝ}
    (hF : A * R * F = A) (hH : H * (L * A) = A) (hG : (L * A * R) * G * (L * A * R) = L * A * R) :
    A * R * (G * (L * A)) = A := by
  calc A * R * (G * (L * A)) = H * (L * A) * R * (G * (L * (A * R * F))) := by rw [hF, hH]
    _ = H * ((L * A * R) * G * (L * A * R)) * F := by simp only [Matrix.mul_assoc]
    _ = H * (L * A * R) * F := by rw [hG]
    _ = H * (L * (A * R * F)) := by simp only [Matrix.mul_assoc]
    _ = A := by rw [hF, hH]

theorem rinv_mul_left {k l : ℕ} (K : Matrix (Fin k) (Fin k) ℝ) (hK : IsUnit K.det) (W : Matrix (Fin k) (Fin l) ℝ) :
    rinv (K * W) * K = rinv W := by
  have hK' : IsUnit Kᵀ.det := by rwa [Matrix.det_transpose]
  unfold rinv
  rw [Matrix.transpose_mul]
  have : K * W * (Wᵀ * Kᵀ) = K * ((W * Wᵀ) * Kᵀ) := by simp only [Matrix.mul_assoc]
  rw [this, Matrix.mul_inv_rev, Matrix.mul_inv_rev]
  calc Wᵀ * Kᵀ * (Kᵀ⁻¹ * (W * Wᵀ)⁻¹ * K⁻¹) * K = Wᵀ * (Kᵀ * Kᵀ⁻¹) * (W * Wᵀ)⁻¹ * (K⁻¹ * K) := by
        simp only [Matrix.mul_assoc]
    _ = _ := by rw [Matrix.mul_nonsing_inv _ hK', Matrix.nonsing_inv_mul _ hK, Matrix.mul_one, Matrix.mul_one]

/-- the pseudo-inverse of a matrix of full row rank -/
theorem isPinv_rinv {k l : ℕ} {W : Matrix (Fin k) (Fin l) ℝ} (h : (W * Wᵀ).det ≠ 0) : IsPinv W (rinv W) where
  aga := by rw [mul_rinv h, Matrix.one_mul]
  gag := by rw [Matrix.mul_assoc, mul_rinv h, Matrix.mul_one]
  ag := by rw [mul_rinv h, Matrix.transpose_one]
  ga := by
    rw [rinv, Matrix.transpose_mul, Matrix.transpose_mul, Matrix.transpose_transpose, Matrix.transpose_nonsing_inv,
      Matrix.transpose_mul, Matrix.transpose_transpose, Matrix.mul_assoc]

theorem det_of_rank {k : ℕ} {K : Matrix (Fin k) (Fin k) ℝ} (h : K.rank = k) : IsUnit K.det := by
  obtain ⟨G, hG⟩ := exists_pinv K
  exact Matrix.isUnit_det_of_left_inverse (leftInv_of_rank hG.aga h)

/-- a matrix of full row rank has an invertible Gram matrix -/
theorem gram_of_rank {k l : ℕ} {W : Matrix (Fin k) (Fin l) ℝ} (h : W.rank = k) : (W * Wᵀ).det ≠ 0 :=
  (det_of_rank (by rw [Matrix.rank_self_mul_transpose, h])).ne_zero

theorem rank_of_rightInv {k l : ℕ} {W : Matrix (Fin k) (Fin l) ℝ} {J : Matrix (Fin l) (Fin k) ℝ} (h : W * J = 1) :
    W.rank = k := by
  refine le_antisymm (Matrix.rank_le_height W) ?_
  have := Matrix.rank_mul_le_left W J
  rwa [h, Matrix.rank_one, Fintype.card_fin] at this

/-- the Gram matrix of a frame of the row space -/
theorem frame_self {m : Type*} {r q N : ℕ} {B : Matrix m (Fin N) ℝ} {M : Matrix (Fin r) (Fin N) ℝ}
    {M' : Matrix (Fin q) (Fin N) ℝ} (h4 : Mᵀ * M + M'ᵀ * M' = 1) (h5 : B * M'ᵀ = 0) : B * Mᵀ * M = B := by
  conv_rhs => rw [← Matrix.mul_one B, ← h4, Matrix.mul_add, ← Matrix.mul_assoc, ← Matrix.mul_assoc, h5, Matrix.zero_mul,
    add_zero]

/-- a Gaussian sketch with at most as many rows as the rank of the matrix has full row rank -/
theorem stdG_left_rank {m N l : ℕ} (A : Matrix (Fin m) (Fin N) ℝ) (h : l ≤ A.rank) :
    ∀ᵐ G ∂(stdG (Fin m × Fin l)), ((gm G)ᵀ * A).rank = l := by
  obtain ⟨r, q, M, M', hr, h1, h2, h3, h4, h5⟩ := exists_frame Aᵀ
  rw [Matrix.rank_transpose] at hr
  have hA : Mᵀ * (M * A) = A := by
    have := congrArg Matrix.transpose (frame_self h4 h5)
    simpa only [Matrix.transpose_mul, Matrix.transpose_transpose, Matrix.mul_assoc] using this
  have hMA : (M * A).rank = r := by
    refine le_antisymm (Matrix.rank_le_height _) ?_
    have := Matrix.rank_mul_le_right Mᵀ (M * A)
    rwa [hA, ← hr] at this
  have hm : Measurable fun G : Fin m × Fin l → ℝ => ent (gm fun p : Fin l × Fin r => (M * gm G) p.2 p.1) :=
    measurable_pi_lambda _ fun p => ((MMeas.const M).mul MMeas.gm) p.2 p.1
  have hlaw : (stdG (Fin m × Fin l)).map (fun G => ent (gm fun p : Fin l × Fin r => (M * gm G) p.2 p.1))
      = stdG (Fin l × Fin r) := by
    have e := stdG_mul (l := l) M h1
    have e' := stdG_comp (ι := Fin r × Fin l) (fun p : Fin l × Fin r => (p.2, p.1)) (by
      intro p q h
      exact Prod.ext (congrArg Prod.snd h) (congrArg Prod.fst h))
    have hm0 : Measurable fun G : Fin m × Fin l → ℝ => ent (M * gm G) :=
      measurable_pi_lambda _ fun p => ((MMeas.const M).mul MMeas.gm) p.1 p.2
    rw [← e, Measure.map_map (by fun_prop) hm0] at e'
    exact e'
  have hd := stdG_det_ne (k := l) (l := r) (by omega)
  rw [← hlaw] at hd
  filter_upwards [ae_of_ae_map hm.aemeasurable hd] with G hG
  have e : gm (ent (gm fun p : Fin l × Fin r => (M * gm G) p.2 p.1)) = (gm G)ᵀ * Mᵀ := by
    rw [← Matrix.transpose_mul]
    rfl
  rw [e] at hG
  refine rank_of_rightInv (J := rinv (M * A) * rinv ((gm G)ᵀ * Mᵀ)) ?_
  calc (gm G)ᵀ * A * (rinv (M * A) * rinv ((gm G)ᵀ * Mᵀ))
      = (gm G)ᵀ * (Mᵀ * (M * A)) * (rinv (M * A) * rinv ((gm G)ᵀ * Mᵀ)) := by rw [hA]
    _ = (gm G)ᵀ * Mᵀ * ((M * A) * rinv (M * A)) * rinv ((gm G)ᵀ * Mᵀ) := by simp only [Matrix.mul_assoc]
    _ = 1 := by rw [mul_rinv (gram_of_rank hMA), Matrix.mul_one, mul_rinv hG]

/-- Given the left sketch `S` (of full row rank), the mean over the right sketches. -/
theorem nystrom_inner {m N l r : ℕ} (A : Matrix (Fin m) (Fin N) ℝ) (S : Matrix (Fin l) (Fin N) ℝ) (hS : S.rank = l)
    (h : l + 2 ≤ r) (H : Matrix (Fin m) (Fin l) ℝ) :
    ∫⁻ G, ENNReal.ofReal (fsq (A - A * gm G * (rinv (S * gm G) * S))) ∂(stdG (Fin N × Fin r))
      ≤ ENNReal.ofReal ((1 + (l : ℝ) / ((r : ℝ) - l - 1)) * fsq (A - H * S)) := by
  obtain ⟨l', q, M, M', hr, h1, h2, h3, h4, h5⟩ := exists_frame S
  obtain rfl : l' = l := hr.trans hS
  have hSM : S * Mᵀ * M = S := frame_self h4 h5
  have hK : IsUnit (S * Mᵀ).det := by
    refine det_of_rank (le_antisymm (Matrix.rank_le_height _) ?_)
    have := Matrix.rank_mul_le_left (S * Mᵀ) M
    rwa [hSM, hS] at this
  have e : ∀ G : Fin N × Fin r → ℝ, rinv (S * gm G) * S = rinv (M * gm G) * M := by
    intro G
    conv_lhs => rw [← hSM]
    rw [Matrix.mul_assoc (S * Mᵀ) M (gm G), ← Matrix.mul_assoc, rinv_mul_left _ hK]
  rw [lintegral_congr fun G => by rw [e G]]
  refine (frame_mean A M M' h1 h2 h3 h4 h).trans (ENNReal.ofReal_le_ofReal ?_)
  refine mul_le_mul_of_nonneg_left ?_ (by linarith [ratio_nonneg h])
  rw [fsq_split (A - H * S) M M' h4, Matrix.sub_mul A (H * S) M'ᵀ, Matrix.mul_assoc H, h5, Matrix.mul_zero, sub_zero]
  linarith [fsq_nonneg ((A - H * S) * Mᵀ)]

/-- a.e. right sketch keeps the rank of the left sketch -/
theorem nystrom_inner_ne {N l r : ℕ} (S : Matrix (Fin l) (Fin N) ℝ) (hS : S.rank = l) (h : l ≤ r) :
    ∀ᵐ G ∂(stdG (Fin N × Fin r)), ((S * gm G) * (S * gm G)ᵀ).det ≠ 0 := by
  have hr : l ≤ (Sᵀ).rank := by rw [Matrix.rank_transpose, hS]
  filter_upwards [range_exact S (hS.trans_le h)] with G hG
  obtain ⟨F, hF⟩ := hG
  rw [sub_eq_zero] at hF
  refine gram_of_rank (le_antisymm (Matrix.rank_le_height _) ?_)
  have := Matrix.rank_mul_le_left (S * gm G) F
  rwa [← hF, hS] at this

/-- the error of the Nyström approximation as a function of the entries of the sketching matrices -/
noncomputable def nysErr {m N l r : ℕ} (A : Matrix (Fin m) (Fin N) ℝ) (x : Fin m × Fin l → ℝ) (y : Fin N × Fin r → ℝ) : ℝ≥0∞ :=
  ENNReal.ofReal (fsq (A - A * gm y * (rinv ((gm x)ᵀ * A * gm y) * ((gm x)ᵀ * A))))

theorem nysErr_meas {m N l r : ℕ} (A : Matrix (Fin m) (Fin N) ℝ) :
    Measurable fun p : (Fin m × Fin l → ℝ) × (Fin N × Fin r → ℝ) => nysErr A p.1 p.2 := by
  have m1 : MMeas fun p : (Fin m × Fin l → ℝ) × (Fin N × Fin r → ℝ) => (gm p.1)ᵀ * A :=
    (MMeas.gm.transpose.mul (MMeas.const A)).comp measurable_fst
  have m2 : MMeas fun p : (Fin m × Fin l → ℝ) × (Fin N × Fin r → ℝ) => gm p.2 := MMeas.gm.comp measurable_snd
  have m3 : MMeas fun p : (Fin m × Fin l → ℝ) × (Fin N × Fin r → ℝ) => rinv ((gm p.1)ᵀ * A * gm p.2) :=
    (m1.mul m2).transpose.mul ((m1.mul m2).mul (m1.mul m2).transpose).inv
  exact (fsq_measurable ((MMeas.const A).sub (((MMeas.const A).mul m2).mul (m3.mul m1)))).ennreal_ofReal

/-- **Generalised Nyström approximation with independent Gaussian matrices.** -/
theorem nystrom_mean {m N k l r : ℕ} (A B : Matrix (Fin m) (Fin N) ℝ) (hA : l ≤ A.rank) (hB : B.rank ≤ k) (h : k + 2 ≤ l)
    (hr : l + 2 ≤ r) :
    ∫⁻ x, ∫⁻ y, nysErr A x y ∂(stdG (Fin N × Fin r)) ∂(stdG (Fin m × Fin l))
      ≤ ENNReal.ofReal ((1 + (l : ℝ) / ((r : ℝ) - l - 1)) * ((1 + (k : ℝ) / ((l : ℝ) - k - 1)) * fsq (A - B))) := by
  obtain ⟨F, hF, hint⟩ := range_finder Aᵀ Bᵀ (by rwa [Matrix.rank_transpose]) h
  have hp : 0 ≤ 1 + (l : ℝ) / ((r : ℝ) - l - 1) := by linarith [ratio_nonneg hr]
  have e : ∀ᵐ x ∂(stdG (Fin m × Fin l)), ∫⁻ y, nysErr A x y ∂(stdG (Fin N × Fin r))
      ≤ ENNReal.ofReal (1 + (l : ℝ) / ((r : ℝ) - l - 1)) * ENNReal.ofReal (fsq (Aᵀ - Aᵀ * gm x * F x)) := by
    filter_upwards [stdG_left_rank A hA] with x hx
    refine (nystrom_inner A _ hx hr (F x)ᵀ).trans (le_of_eq ?_)
    rw [← ENNReal.ofReal_mul hp]
    congr 2
    rw [← fsq_transpose]
    congr 1
    simp only [Matrix.transpose_sub, Matrix.transpose_mul, Matrix.transpose_transpose]
  refine (lintegral_mono_ae e).trans ?_
  rw [lintegral_const_mul _ (fsq_measurable ((MMeas.const _).sub (((MMeas.const _).mul MMeas.gm).mul hF))).ennreal_ofReal,
    ENNReal.ofReal_mul hp]
  refine mul_le_mul' le_rfl (hint.trans (le_of_eq ?_))
  rw [← fsq_transpose (A - B), Matrix.transpose_sub]

end TTS
